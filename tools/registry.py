R={
"C01":("proved",["keypathSplit_concatKeypath","initialKeypath_concatKeypath","keypathDropLast_concatKeypath","dotJoin_dotSplit","concatKeypath_snoc","keypathSplit_writePath","component_int"],"components: non-empty strings without separators, or list indices"),
"C02":("proved",["kwargs_partition","kwargs_order"],""),
"C03":("proved",["staged_exists","chain_transform_staged","chain_transform_eager_reject","chain_transform_ok_eager"],"chains of arbitrary effectful modifiers"),
"C04":("proved",["chain_validate_only_middle","chain_validate_ok_iff","chain_validate_eager_after_pre"],"chain_validate_eager_after_pre is a finding: an eager mark after the preserialize mark disables validation"),
"C05":("proved",["chain_validate_first","chain_validate_all"],""),
"C06":("proved",["list_validate_ok_iff","dict_validate_ok_iff","itemsAccept_forall","list_validate_first","list_validate_all","list_validate_nonlist","dict_validate_nondict"],""),
"C07":("proved",["list_transform_iff","list_tojson_iff","list_serialize_iff","dict_transform_iff","dict_tojson_iff","dict_serialize_iff","collection_none"],"lists without _add/_del instructions, dicts with distinct keys"),
"C18":("proved",["union_validate_ok_iff","union_validate_iff_exists","union_transform_first","union_transform_none","union_tojson_first","union_tojson_none"],""),
"C47":("proved",["chain_serialize_staged","chain_tojson_all"],""),
"C19":("proved",["validate_terminates","validate_visits_once","validate_marked"],"validators and getters are assumed to terminate (UserCodeTerminates)"),
"C21":("proved",["validate_ignores_unmodified","validate_ignores_field"],"primary key field excluded; validators and getters must not themselves read the unmodified fields"),
"C46":("partial",["message_keys","message_keys_own_partial","message_keys_foreign_casing"],"every message is about a rejected reachable value and its key is the dotted path there, in full; violated by the code: field names of objects inside a list or dict are cased by the class holding the list or dict, so the casing part is proved when all classes use one casing. Validators are taken to report with raise_vexc"),
"C20":("partial",["validate_complete","validate_sound_partial","validate_union_unsound","validate_class_unsound","validate_duplicate_unsound"],"completeness in full; soundness up to three proved violations: unions of object types, an object met again where another class is expected, two objects with the same class and primary key"),
"C08":("proved",["min_decides","max_decides","gt_decides","lt_decides","range_decides","positive_decides","negative_decides","nonnegative_decides","nonpositive_decides","odd_decides","even_decides","numeric_ignores_others","range_none","range_ignores_others","numeric_accepts_nan","min_decides_line","max_decides_line","gt_decides_line","lt_decides_line","range_decides_line","signs_decide_line"],"booleans and other non-numbers pass every bound; nan passes every bound (finding)"),
"C09":("proved",["minlength_decides","maxlength_decides","length_decides","length_exact","length_ignores_others"],""),
"C10":("proved",["lowerbond_clamps","upperbond_clamps","lowerbond_idem","upperbond_idem","abs_spec","abs_idem","numeric_transforms_ignore","sub_add","add_sub","mod_spec","inverse_inverse","reverse_reverse", "bonds_clamp_line"],"add/sub/mod on integers; float arithmetic is exact in the model"),
"C11":("proved",["truncate_str","truncate_list","truncate_idem","truncate_negative_not_idem","padend_spec","padstart_spec","pad_long","trim_spec","trim_idem","isSpace_iff","reverse_reverse","reverse_spec","reverse_list_spec", "truncate_bool"],"truncate with a negative length is not idempotent (finding)"),
"C12":("proved",["join_split","split_join","separable_of_first","separable_char","split_join_needs_separable"],""),
"C13":("partial",["hasprefix_str","hassuffix_str","isprefixof_str","issuffixof_str","isprefixof_list","hassuffix_list_partial","issuffixof_list_partial","hasprefix_list_partial","hasprefix_list_wrong","suffix_list_empty_wrong","listPrefixSuffix_false", "affixof_str_list"],"strings in full; on lists hasprefix is equality and the empty suffix is rejected (proved violations)"),
"C48":("proved",["floor_spec","ceil_spec","round_spec","int_decides","bool_decides","float_accepts_numbers","tobool_spec","inverse_spec"],""),
"C49":("proved",["append_list","append_str","prepend_number_raises","insertat_list","len_spec","tolist_join","map_spec","filterCall_spec","filterTypes_spec","replace_self","replace_absent","replace_char_gone", "insertat_text"],""),
"C50":("proved",["present_decides","required_decides","required_localKey_decides","required_foreignKey_vacuous","eq_decides","neq_decides","oneof_decides","eq_accepts_equal","neq_accepts_unequal","oneof_accepts_choices","oneof_text_choices","oneof_dict_choices","pyEq_iff","presentwith_decides","presentwithout_decides","default_spec", "oneof_dict_other"],"required on a foreign key is never checked (finding)"),
"C14":("proved",["tobo_spec","tobo_idem","tonext_spec","tobo_date","tonext_date","nextDay_ordinal"],"tonext past the year 9999 raises; dates and datetimes that are naive or UTC"),
"C15":("proved",["date_roundtrip"],"fromisoformat/isoformat transcribed for the form YYYY-MM-DD"),
"C16":("partial",["datetime_roundtrip_partial","datetime_roundtrip_naive","datetime_whole_second_lost","datetime_roundtrip_false","datetime_offset_dropped"],"violated by the code: a UTC datetime at a whole second becomes malformed JSON that is rejected on input; proved for all others"),
"C51":("partial",["before_decides","after_decides","before_date_point_raises","before_date_point_false"],"violated by the code when a UTC datetime meets a plain date point (TypeError); proved whenever both are naive or both UTC"),
"C17":("partial",["enum_transform_sound","enum_input_decided_partial","enum_input_decided_false","enum_value_form_silent","enum_inputall_loses_name","enum_tojson_shown","enum_name_roundtrip","enum_value_roundtrip","enum_lname_roundtrip","enum_lname_mixed_case_lost","enum_validate_decides","enum_forms_spec"],"violated by the code: once values are accepted unknown input and names become None silently; lowercase names of mixed case members are lost. Everything else is proved"),
"C35": ("partial", ["olist_accounts", "olist_contents", "olist_history", "olist_announced", "olist_positions",
  "olist_extend_iterator", "olist_slice_iterator_unreported", "olist_extend_self_overreports", "olist_insert_negative",
  "olist_reversed_slice_positions", "olist_remove_reports_argument"],
  "Proved for all operation histories whose arguments are re-iterable, distinct from the list itself, forward slices. The full statement is false; witnesses: an iterator given to extend or to a slice assignment, extending a list by itself, negative insert index, reversed slices, removal by equality."),
"C36": ("partial", ["odict_contents", "odict_accounts", "odict_keys", "odict_announced", "odict_history", "odict_distinct",
  "odict_setdefault_unreported", "odict_update_iterator_lost", "odict_ior_iterator_lost", "odict_full_false"],
  "Proved for all operation histories without iterator arguments and without one-argument setdefault. The full statement is false; both exceptions are proved violations."),
"C37": ("proved", ["toOwned_data", "unownedCopy_data", "toOwned_owner", "unownedCopy_plain", "own_round_trip", "own_again", "empty_key_shares_path"],
  "For all nested lists and dicts with string keys. The key path is the dotted join without empty components, so an entry under the empty key shares its parent's path."),
"C38": ("partial", ["links_symmetric_partial", "assign_links_partial", "build_symmetric_partial", "new_symmetric", "set_symmetric", "new_links_one", "new_links_many", "set_links_one", "set_links_many", "links_duplicates_break", "links_exception_breaks"],
            "For all histories of assignments (also of reference ids), list and dict operations, constructions and `set` calls with input nested to any depth, over any number of objects. Missing: histories that insert an object already in the list or `*=` a list, operations that raise midway (both false, proved witnesses), in-place replacement in a list with reference keys, and input with `_add`/`_del` items, with the same object or primary key twice in one relation, or for a relation declared with transforming modifiers around the object type."),
"C39": ("partial", ["local_key_mirrors_partial", "local_key_cleared_partial", "assign_sets_key", "assign_id_unlinks", "new_mirrors", "set_mirrors", "build_mirrors_partial", "local_key_id_change_stale", "local_key_list_replace_stale", "new_late_key_stale"],
  "For all histories of assignments and list and dict operations over any number of objects, including ones that raise midway, as long as assignments to a reference id complete and no primary key is written (false otherwise, proved witness). For all histories that also construct objects and call set with nested dicts and objects at any depth (completing calls, text primary keys declared first in the class, no _add/_del); with a primary key declared after a relation construction leaves a stale id (proved witness). The list form of the relation is false for in-place replacement (proved witness)."),
"C42": ("partial", ["guardCheck_ok_iff", "guard_no_operator", "guard_fn_refuses", "guard_types_refuses", "save_fails_closed", "delete_fails_closed", "tojson_fails_closed", "tojson_permitted", "guard_types_transform_escapes", "guard_eager_not_unauthorized"],
  "Failing closed is proved in full for save, delete and tojson. The exception is not always the unauthorized one: errors raised by a guard itself, or by the transforming half of a types guard, pass through (proved witness)."),
"C43": ("proved", ["save_writes_validated", "save_order"], "guards, callbacks and storage are parameters that do not call save themselves"),
"C44": ("partial", ["save_unlinked_evens", "save_saves_unlinked_partial", "save_misses_unlinked"],
  "Violated by the code: removing from the list while iterating skips every second unlinked object (proved for lists of any length). Proved: exactly the objects at even positions are saved."),
"C40": ("proved", ["ograph_get_put", "ograph_unlinkable", "ograph_history", "ograph_has", "ograph_init_stops", "merge_ok", "merge_conflict", "merge_error", "linkGraph_shared", "linkGraph_error", "linkGraph_taken_key_silent", "new_in_graph"],
  "Keys are the ids the objects have at the time of the operation. Members are the objects registered in a table; an object without primary key value stays outside."),
"C41": ("proved", ["cgraph_history", "cgraph_enum_history", "cgraph_redefinition", "cgraph_enum_redefinition", "cgraph_fetch_class", "cgraph_resolve", "cgraph_enum_empty_name"],
  "enum redefinition raises AttributeError (finding); class identity is opaque"),
"C45": ("partial", ["conf_values", "conf_hooks", "decorator_values", "decorator_explicit_loses", "conf_empty_graph"],
  "Proved for every option of a configuration. Through the decorator an explicit key strategy loses against camelize_json_keys=False, and an empty graph name counts as not given (both proved)."),
"C31": ("partial", ["new_never_modified", "new_previous_partial", "new_modified_names_partial", "NewObjDemo.new_object_gets_modified_field", "NewObjDemo.new_list_change_records_previous"],
  "is_new and is_modified of a new object are proved unchanged by every history over all objects. Previous values and modified names hold in part; the full statement is false: changing a plain list in place on a new object records its previous value, and unlinking from the other side adds a modified name (both proved)."),
"C32": ("proved", ["tracking_exact", "assign_equal_nothing", "assign_own_nothing", "olist_add_container_diverges", "odict_add_container_diverges", "AssignDemo.tracking_misses_failed_sort"],
  "Assignments and every list and dict method on plain fields. Exceptions proved as witnesses: a sort that raises midway reports nothing, and adding a list or dict to an owned list or dict never returns (though the field is reported)."),
"C33": ("proved", ["reset_restores", "reset_refused", "AssignDemo.reset_equal_not_identical", "AssignDemo.reset_misses_untyped_list"],
  "Restored up to Python equality, after any mix of assignments and list and dict methods. In-place changes are covered for fields declared as list or dict; on other fields they are not recorded (proved witness)."),
"C34": ("proved", ["update_unknown", "update_plain"], "the write half is for plain fields; assigning a relation also updates the other side by design"),
"C22": ("proved", ["strict_rejects", "unknown_keys_ignored", "unknown_keys_ignored_new", "nested_unknown_keys_ignored", "InputDemo.nested_strict_not_atomic"],
  "Strict rejection before any write for the receiver's own keys. A strict failure in a nested object comes after earlier fields were written (proved witness)."),
"C23": ("partial", ["set_touches_named_partial", "InputDemo.set_with_key_touches_unnamed", "InputDemo.set_fills_unnamed_list"],
  "Proved for fields that take no part in a relation and input without a primary key for the receiver. The full statement is false: a nested dict with the receiver's key writes to the receiver, and a nonnull list relation holding None becomes an empty list (both proved)."),
"C24": ("partial", ["readonly_kept_partial", "InputDemo.readonly_relation_written"],
  "Proved for all call sequences and all fields that take no part in a relation. The full statement is false: the reference id of a readonly relation is not checked (proved witness)."),
"C25": ("partial", ["writeonce_kept_partial", "InputDemo.writeonce_relation_rewritten"],
  "As C24, for writeonce."),
"C26": ("partial", ["writenonnull_kept_partial", "keepsNonNull_of_chain", "InputDemo.writenonnull_relation_cleared"],
  "As C24, for writenonnull; the hypothesis on the transforms is shown to follow from the chain."),
"C27": ("partial", ["new_fields_partial", "new_unlinked", "ConstructDemo.new_with_key_overwritten"],
  "Proved for fields that take no part in a relation and input without a primary key, and for relation fields and reference ids when no relation is given. The full statement is false: with a primary key a nested dict with the same key overwrites the new object (proved witness)."),
"C28": ("partial", ["tojson_hides_partial", "tojson_no_hidden_entry", "JsonDemo.union_shows_hidden_validity", "JsonDemo.writeonly_relation_shows_id"],
  "Non-interference for whole object graphs, provided user code does not read hidden values itself and no union alternative contains an object; absence of entries in full. Without the condition on unions it is false (proved): a union validates the object to choose an alternative, so the JSON shows whether a hidden value is valid. A writeonly local key relation still outputs its id (proved)."),
"C29": ("proved", ["tojson_terminates", "JsonDemo.tojson_embedded_cycle_diverges"],
  "Objects nested through relation fields only, as in the statement; an embedded cycle never returns (proved witness)."),
"C30": ("proved", ["tojson_entries", "instance_entries"],
  "The root theorem assumes distinct JSON names; the theorem for objects at any depth does not. Nested objects also leave out relations that lead back and relations of classes already met."),
"C52": ("proved", ["tojson_changes_nothing", "validate_visits_once"], "No hypotheses. Validators and getters are functions that only read objects."),
"C53": ("partial", ["annotation_text_means_partial", "annotation_required_iff", "annotation_object_means_partial", "annotation_means_false", "annot_nested_dict", "annot_union_none", "annot_union_nested", "annot_pipe_optional", "annot_forward_required", "annot_object_pipe", "annot_link_union", "unclosed_link_refused"], "As text: no comma inside the item of a dict or (except that of a dict) inside a member of Union[...], no None in Union[...], None admitted by an alternative only beside None. As object: no X | Y, no forward references, flat unions. Outside these the code goes wrong, shown by the witnesses."),
"C54": ("partial", ["keyset_exact_partial", "keyset_bad_path", "keyset_object", "keyInt_str", "KeySetDemo.keyset_container_diverges", "KeySetDemo.keyset_ignores_readonly", "KeySetDemo.keyset_ignores_scalar", "keyInt_plus"], "Fields that are not relations, values that are not lists or dicts; for those the call never returns, and the write rule of the field is not applied (witnesses)."),
"C55": ("partial", ["json_round_trip_partial", "survives_str", "survives_int", "survives_bool", "survives_float", "survives_date", "survives_datetime", "survives_enum_name", "RoundTripDemo.event_fits", "RoundTripDemo.null_becomes_default", "RoundTripDemo.equal_keys_merge", "RoundTripDemo.nested_writeonce_ignored"], "Objects without relations, with readable and writable fields. It fails for a null field with a default, nested objects with equal keys and nested write-once fields with a default (witnesses), and for datetimes at a whole second (C16)."),
    "C56": ("partial", ["opposite_total_partial", "opposite_iff_partial", "opposite_mutual_partial",
                        "relations_of_declarations_partial", "declared_links_symmetric_partial", "resolve_later",
                        "inherited_relation_lost", "subclass_breaks_links", "ambiguous_relation_one_sided"],
            "Proved for all programs in which no two classes share a types object (so no relation field written with "
            "types is inherited): the opposite is exactly the field declared as the other end, mutually, and it does not "
            "matter when it is looked up. With a subclass the claim is false for the code: defining it makes the base "
            "class's fields lose their opposite (general theorem and end to end witness)."),
    "C57": ("partial", ["validate_types_iff", "validate_types_message", "validate_callable_iff", "validate_callable_message",
                        "oneisvalid_iff_partial", "oneisvalid_ignores_callables", "oneisvalid_callable_broken",
                        "transform_types_iff", "validate_marked_iff", "transform_marked_iff", "arranged_exists", "eager_error_escapes",
                        "SubPipeMarksDemo.oneisvalid_eager_broken", "compare_iff", "compare_instance_field_broken",
                        "compare_in_collection_broken", "callable_applied", "invalid_refuses", "isobjof_iff"],
            "Nested pipelines with and without marks, except those with eager after preserialize. An exception raised by a "
            "transform of a pipeline, or by a check before an eager mark, escapes (so oneisvalid does not go on). For oneisvalid "
            "only alternatives given as pipelines: callables are "
            "never called, and compare raises on fields holding objects and in objects inside lists (general theorems)."),
    "C58": ("partial", ["cancu_iff", "canc_iff", "canu_iff", "refused_message", "canr_shows", "canr_hides",
                        "guard_checked_by_validate_partial", "guard_checked_by_save_partial", "unreadable_not_shown",
                        "owner_only", "isthis_iff", "callable_checker_broken", "keyless_operator_passes",
                        "PermitDemo.object_field_guard_bypassed", "PermitDemo.object_field_guard_crashes",
                        "PermitDemo.unreadable_relation_key_shown"],
            "Checkers given as pipelines, on fields that do not hold an object, of the object on which the method is called. "
            "Outside of this the code violates it: callable checkers always raise, guards on fields holding an object look at "
            "the wrong object, the reference id of an unreadable relation is shown, objects without keys count as equal."),
    "C59": ("partial", ["opby_assigns_partial", "opby_direct_completes", "opby_only_records", "opby_satisfies_check", "asop_iff", "asop_in_list_broken",
                        "asop_checked_by_validate_partial", "asop_checked_by_save_partial", "asop_ignores_operator_broken",
                        "three_parameters_broken", "OperatorDemo.forged_author_valid", "OperatorDemo.post_in_list_unchecked",
                        "OperatorDemo.post_in_list_crashes"],
            "Assignment is proved for fields without a loaded object. The check only asks for some reference id: the code accepts "
            "ids written by hand, does nothing for transformers with three parameters, and looks at the wrong object inside lists."),
    "C60": ("proved", ["get_found", "get_only", "get_raises_only", "get_text", "get_compose", "envName_iff", "load_value", "load_only",
                       "load_fails_iff", "load_get", "original_name_unknown", "colliding_names_broken"],
            "Numbers in key paths are read as an optional sign and ASCII digits. Two consequences a user may not expect are proved "
            "besides: names as spelled in the file are unknown to lookups, and of two names with the same form one is lost."),
    "C61": ("partial", ["uploader_iff", "requests_consistent", "camel_uploader_undefined", "UConfDemo.camel_uploader_broken"],
            "For names in underscore form (without separators, not a number). Violated for other names: the entry is renamed when the "
            "file is loaded and the request for its name in the file fails."),
    "C62": ("partial", ["declared", "row_exists", "row_unique", "decided_unique", "same_row_same_definition", "declaration_kept", "class_tables", "owner_is_last_user", "named_class_partial", "unnamed_class", "named_class_remembered", "shared_declaration_broken", "MarksDemo.stale_class_broken", "list_relation_nullable_broken", "asopd_after_asop_broken", "temp_lost_broken", "stale_foreign_key_broken"],
            "Definitions, class tables and independence of declarations are proved for all programs. The lookup of named classes holds for a declaration used in one class and before any lookup on a declaration it is made from; both conditions are needed (witnesses). Combinations where marks overrule each other against their documentation are proved as well."),
    "C63": ("partial", ["match_finds", "match_anchored", "match_others", "hexcolor_passes", "hexcolor_input", "hexcolor_tail_broken", "email_passes", "email_tail_broken", "email_bar_broken", "url_passes", "url_broken", "securepw_passes", "securepw_newline_broken", "securepw_symbols_broken", "kinds_pass", "kinds_ascii", "formats_others", "replacer_rewrites", "replacer_no_match", "replacer_word", "replacer_others", "ends_plain"],
            "The exact set of accepted strings is proved for every check. It is larger than the format: hexcolor and email ignore what follows, url and securepw and every ^...$ pattern accept a final line break, url accepts 999.999.999.999, email accepts bars in the last label; securepw does not count % and ^ as symbols. match is characterised for patterns without anchors and for ^r$; replacer for patterns that do not match the empty text."),
    "C64": ("partial", ["save_at_rest", "setonsave_value", "onsave_called", "onupdate_called", "onwrite_called", "onupdate_skips", "onwrite_skips", "unforced_kept", "unloaded_kept", "onsave_empty_relation", "SaveModsDemo.nested_setter_marks_outer", "SaveModsDemo.nested_setter_replaces_instance", "SaveModsDemo.nested_onupdate_missed", "SaveModsDemo.listed_onupdate_raises", "SaveModsDemo.clean_onsave_skipped", "SaveModsDemo.set_back_is_update", "onwrite_items"],
            "Proved for the saved object itself, with related objects that are unmodified: setters, callbacks, order, frame, relations that are not loaded stay so; and for graphs of unmodified objects that nothing changes. False for changed objects inside the saved one: their setters' results are assigned to the outer object's field on the way, their update and write callbacks consult the outer object. onsave is not called for unmodified objects although documented; a value set and set back counts as updated."),
    "C65": ("partial", ["toint_exact", "toint_rejects", "toint_others", "tostr_int", "tostr_toint", "tostr_toint_bool", "tostr_tofloat", "div_spec", "pow_spec", "sqrt_spec", "div_pow_ignore", "toupper_ascii", "tolower_ascii", "tocap_ascii", "totitle_ascii", "case_idem", "case_others", "ConvertDemo.toint_raises", "ConvertDemo.toint_keeps_float", "tofloat_bool"],
            "Exact, except for the kind of failure: a text of no integer and a division by zero raise exceptions that are no validation errors. Floats stay floats under toint; a bool written as text cannot be read back. Division and power on integers, with exact rational results (rounding to a float is not modelled); case on ASCII texts; float texts and roots are parameters."),
    "C66": ("partial", ["randomText_bool", "randomdigits_spec", "randomalnums_spec", "randomalnumpuncs_spec", "randomdigits_reaches", "randomint_spec", "mongoid_spec", "salt_checkpw", "bcryptPart_short", "salt_twice", "checkpw_needs_text", "checkpw_raises", "salt_others", "GenerateDemo.twelve_digits", "GenerateDemo.never_11", "GenerateDemo.long_passwords", "randomfloat_between"],
            "Given the laws of random.sample, randrange and bcrypt. Violated by the code: texts longer than the alphabet (11 digits) raise a ValueError, characters never repeat, so most texts cannot be generated; passwords longer than 72 bytes are accepted with any ending; a stored text that is no hash raises a ValueError."),
    "C67": ("proved", ["relation_changes_stay_local", "unconnected_untouched", "plain_assignment_alone"],
            "The internal table of known objects (`_graph`) is excepted: merging tables reaches every object ever connected. Arguments of list operations are plain collections."),
    "C68": ("partial", ["include_keeps_status", "include_symmetric", "include_reference", "include_members", "include_leaves_rest", "fobj_loaded", "fobj_loads", "SymDemo.include_reset_forgets", "SymDemo.include_marks_loaded", "SymDemo.include_again_raises"],
            "Given that the ORM answers truthfully and only adds objects. Reference lists kept by local keys: symmetry only, not the ids. Violated by the code: loaded objects are marked as modified, a later reset takes the loaded object and the reference id away although the object is not modified, including a list again raises a graph conflict when the ORM makes new objects and leaves the object marked as modified."),
    "C69": ("partial", ["datetime_reads_iff", "datetime_rejects", "date_reads_iff", "date_rejects", "datetime_offset_ignored", "datetime_of_date", "date_of_datetime"],
            "accepted texts and their meaning as an iff against a grammar of its own (`DateTimeText`); violated by the code for offsets: `2024-02-29T12:00+08:00` is read as noon UTC, eight hours late, for every text and offset (`datetime_offset_ignored`). Texts are read as `fromisoformat` of Python 3.10 does; the further forms of later versions and offsets with seconds are not modelled"),
    "C70": ("partial", ["nested_reset", "nested_noticed", "nested_local", "nested_current", "persisted_stored", "persisted_raises", "persisted_nested", "nested_kept_spoils", "nested_any_kept", "nested_stale_path"],
            "one object without relations; containers have an identity, so aliasing is covered. Violated by the code in four cases, each proved: a list kept by the program while its field was assigned another value and then changed spoils `reset` (`nested_kept_spoils`); a list in a field not declared as list or dict is not restored (`nested_any_kept`); after a change in a container inside another `persisted_modified_fields` raises (`persisted_nested`); a container that moved within its list is recorded under the path it had before (`nested_stale_path`). Putting a list or dict into an owned one never returns (`keyset_container_diverges`) and is excluded, as are iterators as arguments and `setdefault(k)` (see C35, C36)"),
    "C71": ("proved", ["save_hooks", "delete_hooks", "delete_permitted"],
            "Callbacks are arbitrary effectful functions on the objects that do not call save or delete themselves."),
    "C72": ("proved", ["list_merges", "set_list_merges", "new_list_merges"],
            "Dicts are flat (they give no relations themselves) and the primary key field takes what it is given and has no default. list_merges is about the transform of a field with any mix of modifiers that keep the value; the other two are about set and the constructor for an embedded list. A stored value may be one that Python calls equal to the given one (1 and True), which is what assignment does."),
    "C73": ("partial", ["validate_verdict", "validate_reports_more", "validate_crash", "is_valid_spec", "ModeDemo.union_callable_violated", "ModeDemo.union_objects_violated"],
            "Proved for all graphs and settings of classes whose unions choose between plain types. False for other unions, by two witnesses: with all_fields=True the checks of a failing alternative go on after the first error, so a callable written for the alternative's type raises a TypeError on a valid value (`union_callable_violated`), and objects seen there count as checked, so an invalid object is accepted (`union_objects_violated`)."),
    "C74": ("partial", ["relation_changes_reported", "modified_flag_follows", "program_changes_reported", "program_modified_flag", "TrackDemo.unlinked_not_modified", "TrackDemo.unlinked_not_reported", "TrackDemo.ids_reversed_misreported", "TrackDemo.failed_append_unreported", "saved_is_clean", "changes_since_save", "flag_since_save"],
            "Proved for every field of every persisted object over all completed programs of assignments, list and dict methods, set, update and constructors (unions without object types), with one exception that the code has: a single relation cleared from the other side. Its name is not in modified_fields (foreign key) or it is there while is_modified stays False (local key); both are shown on concrete worlds. Sorting reference ids records a name that is no field, and an operation that raises can leave a change unreported: shown as well."),
    "C75": ("partial", ["set_same_arguments", "new_same_arguments", "reordered_same", "renamed_same", "renamed_ref_same", "SpellDemo.primary_spelling_broken"],
            "Proved except for the primary key, where it is false: dicts with the same primary key are merged into one object only if the key is given under its own name, not under its name in JSON. Classes whose fields have an eager mark before an object are not covered. `SameArguments` and `SameSense` say what it means that two inputs say the same; order and single renamed keys are instances."),
    "C76": ("partial", ["complete_keeps_report", "pick_raises", "omit_raises", "completed_assign_raises", "assign_as_usual", "assign_new_as_usual"],
            "True for the report of modifications over complete. False for the rest: pick and omit raise an AttributeError for every object (is_partial is a property without setter); after complete, `_modified_fields` is a list, and assigning a field raises an AttributeError after the object has been flagged as modified. What tojson outputs for an object with picks is stated in C30. Relations assigned after complete are not modelled."),
    "C77": ("partial", ["assign_is_ordinary", "assign_stopped", "update_is_ordinary", "setter_changes_reported", "setter_names_fields", "readonly_calculated", "callable_setter", "pipeline_setter", "get_after_set", "input_drops_calculated", "input_without_calculated", "CalcDemo.both_set", "CalcDemo.set_drops_update_sets", "CalcDemo.update_readonly_midway", "pipeline_setter_marked"],
            "Proved for assignment and update. Violated for set and constructors: a value given for a calculated field passes the field's pipeline and is dropped (input_drops_calculated, input_without_calculated), while update calls the setter (CalcDemo.set_drops_update_sets); update with a read-only calculated field raises after earlier names have been assigned (CalcDemo.update_readonly_midway). Setters that catch exceptions, construct objects or do not terminate are not modelled; the nesting of setters is limited by a number, for every such number."),
    "C78": ("partial", ["modified_fields_name_fields", "program_names_fields", "calculated_not_modified", "TrackDemo.reversed_ids_reported"],
            "Proved for all operations except sorting and reversing lists of reference ids, where the property fails: lists such as tag_ids are reported under their own name (TrackDemo.reversed_ids_reported). For _add and _del commands in input the conclusion is weaker: the model lets them name any field. Names recorded on the other side of a relation are only shown to be relations of some class. Key paths into nested lists and dicts of a field are not modelled (methods are called on the list or dict held by a field)."),
    "C79": ("partial", ["remove_object", "remove_id", "remove_back", "TrackDemo.unloaded_id_removed", "TrackDemo.unloaded_other_removed"],
            "Full effect for all states with as many ids as objects. The claim is false when some ids have no loaded object (unloaded_id_removed): removing the id of a loaded object then can leave it linked. remove_id needs an id equal to itself that no other object of the list has."),
    "C80": ("partial", ["append_object", "append_back", "assign_moves", "assign_first", "append_moves", "assign_none", "remove_single", "assign_key", "assign_partner", "assign_partner_back", "leave_partner", "leave_partner_back"],
            "Making and moving links: for completed operations (merging object graphs raises when two objects claim one id; appending an object without id raises). Ending links: completion is proved. Whole lists of a one-to-many relation are the subject of C84. Whole lists are C84 and C85. Not covered: objects linked to themselves."),
    "C81": ("partial", ["date_formatted", "datetime_formatted_partial", "plain_formatted", "datetime_whole_second_raises", "formatter_first_raises"],
            "Violated for UTC datetimes at a whole second: tojson raises (datetime_whole_second_raises), and with fmtd before the type every output raises (formatter_first_raises). strftime is a parameter."),
    "C82": ("partial", ["upload_confined", "upload_stored", "uploads_never_overwrite", "urls_differ", "extension_kept", "no_extension", "s3_stored", "other_arguments", "localDir_iff", "alioss_loses", "no_url_leaves_file", "text_raises", "UploadDemo.no_endpoint", "relative_dir", "absolute_dir", "UploadDemo.outside_public"],
            "Violated: Aliyun uploaders upload nothing and return None (alioss_loses); with no url configured the file is stored and then TypeError is raised (no_url_leaves_file); the URL of an earlier upload is no acceptable input (text_raises); an S3 uploader without endpoint_url returns None/bucket/name (UploadDemo.no_endpoint). uuid4, lower, the file system's refusals and the S3 service are parameters; links and .. in the configured directory are not followed."),
    "C83": ("partial", ["tojson_plain", "valid_tojson_plain", "str_checks", "int_checks", "bool_checks", "float_checks", "date_makes", "datetime_makes", "enum_makes", "fmtd_keeps", "canr_keeps", "PlainDemo.any_not_plain", "PlainDemo.list_not_plain", "dumps_writes_tojson", "dumps_completes", "PlainDemo.any_not_written"],
            "tojson_plain holds for all declarations and graphs; valid_tojson_plain derives its hypotheses from validate() for typed declarations whose unions consist of simple types. The claim fails for untyped fields (any_not_plain, list_not_plain). Of json.dumps the data it writes is modelled, not the text; NaN and infinities count as numbers, as json.dumps writes them."),
    "C84": ("proved", ["assign_list_effect", "list_method_effect", "list_removal_effect", "clear_effect", "pop_effect", "delete_effect", "insert_effect", "extend_effect", "replace_effect", "regrouped_members"],
            "Slices, *= and other operations: list_method_effect applies when the operation's reports are removals followed by additions. Completion is assumed where an object joins (merging object graphs raises when two objects claim one id). The code walks the live list while linking; the proofs show that list is not changed meanwhile."),
    "C85": ("proved", ["assign_keyed_effect", "keyed_removal_effect", "keyed_clear_effect", "keyed_pop_effect", "keyed_delete_effect", "keyed_insert_effect", "keyed_extend_effect", "retagged_tagged", "assign_unkeyed_effect", "unkeyed_method_effect", "unkeyed_removal_effect", "unkeyed_clear_effect", "unkeyed_pop_effect", "unkeyed_delete_effect", "unkeyed_insert_effect", "unkeyed_extend_effect", "unkeyed_replace_effect", "TrackDemo.retag0", "TrackDemo.relist2"],
            "Specification in Props/ManyLists.lean: Holds, Tagged, Fresh, Retagged for the side with ids; Listed, Welcome, Relisted for the side without. Item assignment from the side with ids is not in the statement: it leaves stale ids (C39). Hypotheses: 6 nested calls of fuel, lists without repetition."),
    "C86": ("partial", ["eq_iff_alike", "eq_limit", "eq_other_class", "eq_self", "eq_returns", "TwinDemo.twins_compare", "TwinDemo.twins_alike"],
            "The meaning is proved for every comparison that returns. The code violates the rest: two new objects that look the same and whose relations lead back to them cannot be compared, RecursionError is raised whatever the limit (twins_compare), though they are alike (twins_alike)."),
    "C87": ("partial", ["eq_is_identity", "op_by_identity", "op_keeps_apart", "history_by_identity", "TwinDemo.twin_not_linked", "TwinDemo.twin_linked_by_identity", "TwinDemo.twin_removed", "TwinDemo.twins_assign", "update_by_identity", "reset_by_identity", "TwinDemo.twin_update"],
            "Proved for objects told apart by leading fields; the code violates it for new objects with the same contents: a second post like the first is not entered in its author's list, removing one of two alike posts removes the other, giving a post to an alike user raises RecursionError. `update` and `reset` are covered; setting and creating from input are not (they go through the same assignments, but a new object is not told apart before its fields are filled)."),
    "C88": ("proved", ["previous_id_kept", "previous_value_kept", "reset_restores_field", "previous_id_new", "primary_keeps_previous", "KeyDemo.bare_key_raises"],
            "Programs do not call methods of a list or dict that is itself the key. A class whose key is not declared with `primary` of `types` and has no recorded previous value makes `_previous_id` raise after a change (proved witness)."),
    "C89": ("partial", ["fetched_check", "fetched_check_iff", "fetched_check_in_list", "FetchDemo.missing_key_matches"],
            "Proved for fields of objects, keys and values kept in plain fields, and an ORM that answers truthfully without changing the objects. Violated by the code: an object without a key matches a record without a key (missing_key_matches); for the items of lists and dicts the check raises AttributeError (fetched_check_in_list)."),
    "C90": ("proved", ["set_again", "set_split", "RepeatDemo.again_run", "RepeatDemo.nan_again", "RepeatDemo.nested_again"],
            "set_again and set_split for plain values. Outside the statement, shown by RepeatDemo.nan_again and nested_again: NaN is recorded as a change each time, and an object given as a dict is made anew each time."),
    "C91": ("proved", ["new_then_set", "AtOnceDemo.equal_kept", "AtOnceDemo.once_with_default", "AtOnceDemo.key_later"],
            "The three cases left out by the statement are shown to differ: a value equal to the default, a write-once field with a default, a primary key set later."),
    "C92": ("proved", ["put_back", "flat_comes_back", "tojson_origin", "PutBackDemo.back", "PutBackDemo.memo_json", "PutBackDemo.appended_again", "PutBackDemo.nested_replaced", "PutBackDemo.list_emptied"],
            "The required conditions are necessary: an appending transform is applied again, a nested object is replaced by a new one, and a required relation list that is None becomes empty (three witnesses)."),
    "C93": ("proved", ["options_only_add", "nulls_only", "same_output", "JsonOptionsDemo.classes_out", "JsonOptionsDemo.plain_run", "JsonOptionsDemo.full_run", "JsonOptionsDemo.null_replaces"],
            "For fields with one converting type modifier, not for unions (an alternative is chosen by validation). Distinct JSON names are necessary: otherwise a null replaces a value (witness)."),
    "C94": ("partial", ["most_derived_counts", "base_fields_first", "field_as_declared", "no_other_fields", "no_mutable_default", "DeclareDemo.sub_line", "DeclareDemo.factory_not_called", "DeclareDemo.two_bases_lose_override", "DeclareDemo.inherited_types_shared", "first_with_field", "names_of_all_bases", "DeclareDemo.two_bases_stated"],
            "Which declaration counts is proved for single inheritance; the names, and what counts in general (the first class in the method resolution order that has the field), and mutable defaults for any inheritance. Violated for default_factory (the object gets dataclasses.MISSING) and with two base classes (an override can be lost). JSON objects as defaults are not considered."),
    "C95": ("partial", ["nothing_missing", "install_only_adds", "missing_listed", "listed_facts", "occurring_adds_nothing", "listed_once", "PackagesDemo.both_listed", "PackagesDemo.longer_name_hides", "PackagesDemo.unended_line_joined", "PackagesDemo.no_file_raises"],
            "Proved for files whose lines are all ended, with \"listed\" meaning that the name occurs in a line. Violated: a longer name hides a package, an unended last line is joined with the new one, and without the file the declaration raises after the installation."),
}
