{
 "claims": [
  {
   "property": "C01",
   "status": "proved",
   "theorems": [
    "JC.keypathSplit_concatKeypath",
    "JC.initialKeypath_concatKeypath",
    "JC.keypathDropLast_concatKeypath",
    "JC.dotJoin_dotSplit",
    "JC.concatKeypath_snoc",
    "JC.keypathSplit_writePath",
    "JC.component_int"
   ],
   "note": "components: non-empty strings without separators, or list indices"
  },
  {
   "property": "C02",
   "status": "proved",
   "theorems": [
    "JC.kwargs_partition",
    "JC.kwargs_order"
   ],
   "note": ""
  },
  {
   "property": "C03",
   "status": "proved",
   "theorems": [
    "JC.staged_exists",
    "JC.chain_transform_staged",
    "JC.chain_transform_eager_reject",
    "JC.chain_transform_ok_eager"
   ],
   "note": "chains of arbitrary effectful modifiers"
  },
  {
   "property": "C04",
   "status": "proved",
   "theorems": [
    "JC.chain_validate_only_middle",
    "JC.chain_validate_ok_iff",
    "JC.chain_validate_eager_after_pre"
   ],
   "note": "chain_validate_eager_after_pre is a finding: an eager mark after the preserialize mark disables validation"
  },
  {
   "property": "C05",
   "status": "proved",
   "theorems": [
    "JC.chain_validate_first",
    "JC.chain_validate_all"
   ],
   "note": ""
  },
  {
   "property": "C06",
   "status": "proved",
   "theorems": [
    "JC.list_validate_ok_iff",
    "JC.dict_validate_ok_iff",
    "JC.itemsAccept_forall",
    "JC.list_validate_first",
    "JC.list_validate_all",
    "JC.list_validate_nonlist",
    "JC.dict_validate_nondict"
   ],
   "note": ""
  },
  {
   "property": "C07",
   "status": "proved",
   "theorems": [
    "JC.list_transform_iff",
    "JC.list_tojson_iff",
    "JC.list_serialize_iff",
    "JC.dict_transform_iff",
    "JC.dict_tojson_iff",
    "JC.dict_serialize_iff",
    "JC.collection_none"
   ],
   "note": "lists without _add/_del instructions, dicts with distinct keys"
  },
  {
   "property": "C18",
   "status": "proved",
   "theorems": [
    "JC.union_validate_ok_iff",
    "JC.union_validate_iff_exists",
    "JC.union_transform_first",
    "JC.union_transform_none",
    "JC.union_tojson_first",
    "JC.union_tojson_none"
   ],
   "note": ""
  },
  {
   "property": "C47",
   "status": "proved",
   "theorems": [
    "JC.chain_serialize_staged",
    "JC.chain_tojson_all"
   ],
   "note": ""
  },
  {
   "property": "C19",
   "status": "proved",
   "theorems": [
    "JC.validate_terminates",
    "JC.validate_visits_once",
    "JC.validate_marked"
   ],
   "note": "validators and getters are assumed to terminate (UserCodeTerminates)"
  },
  {
   "property": "C21",
   "status": "proved",
   "theorems": [
    "JC.validate_ignores_unmodified",
    "JC.validate_ignores_field"
   ],
   "note": "primary key field excluded; validators and getters must not themselves read the unmodified fields"
  },
  {
   "property": "C46",
   "status": "partial",
   "theorems": [
    "JC.message_keys",
    "JC.message_keys_own_partial",
    "JC.message_keys_foreign_casing"
   ],
   "note": "every message is about a rejected reachable value and its key is the dotted path there, in full; violated by the code: field names of objects inside a list or dict are cased by the class holding the list or dict, so the casing part is proved when all classes use one casing. Validators are taken to report with raise_vexc"
  },
  {
   "property": "C20",
   "status": "partial",
   "theorems": [
    "JC.validate_complete",
    "JC.validate_sound_partial",
    "JC.validate_union_unsound",
    "JC.validate_class_unsound",
    "JC.validate_duplicate_unsound"
   ],
   "note": "completeness in full; soundness up to three proved violations: unions of object types, an object met again where another class is expected, two objects with the same class and primary key"
  },
  {
   "property": "C08",
   "status": "proved",
   "theorems": [
    "JC.min_decides",
    "JC.max_decides",
    "JC.gt_decides",
    "JC.lt_decides",
    "JC.range_decides",
    "JC.positive_decides",
    "JC.negative_decides",
    "JC.nonnegative_decides",
    "JC.nonpositive_decides",
    "JC.odd_decides",
    "JC.even_decides",
    "JC.numeric_ignores_others",
    "JC.range_none",
    "JC.range_ignores_others",
    "JC.numeric_accepts_nan",
    "JC.min_decides_line",
    "JC.max_decides_line",
    "JC.gt_decides_line",
    "JC.lt_decides_line",
    "JC.range_decides_line",
    "JC.signs_decide_line"
   ],
   "note": "booleans and other non-numbers pass every bound; nan passes every bound (finding)"
  },
  {
   "property": "C09",
   "status": "proved",
   "theorems": [
    "JC.minlength_decides",
    "JC.maxlength_decides",
    "JC.length_decides",
    "JC.length_exact",
    "JC.length_ignores_others"
   ],
   "note": ""
  },
  {
   "property": "C10",
   "status": "proved",
   "theorems": [
    "JC.lowerbond_clamps",
    "JC.upperbond_clamps",
    "JC.lowerbond_idem",
    "JC.upperbond_idem",
    "JC.abs_spec",
    "JC.abs_idem",
    "JC.numeric_transforms_ignore",
    "JC.sub_add",
    "JC.add_sub",
    "JC.mod_spec",
    "JC.inverse_inverse",
    "JC.reverse_reverse",
    "JC.bonds_clamp_line"
   ],
   "note": "add/sub/mod on integers; float arithmetic is exact in the model"
  },
  {
   "property": "C11",
   "status": "proved",
   "theorems": [
    "JC.truncate_str",
    "JC.truncate_list",
    "JC.truncate_idem",
    "JC.truncate_negative_not_idem",
    "JC.padend_spec",
    "JC.padstart_spec",
    "JC.pad_long",
    "JC.trim_spec",
    "JC.trim_idem",
    "JC.isSpace_iff",
    "JC.reverse_reverse",
    "JC.reverse_spec",
    "JC.reverse_list_spec",
    "JC.truncate_bool"
   ],
   "note": "truncate with a negative length is not idempotent (finding)"
  },
  {
   "property": "C12",
   "status": "proved",
   "theorems": [
    "JC.join_split",
    "JC.split_join",
    "JC.separable_of_first",
    "JC.separable_char",
    "JC.split_join_needs_separable"
   ],
   "note": ""
  },
  {
   "property": "C13",
   "status": "partial",
   "theorems": [
    "JC.hasprefix_str",
    "JC.hassuffix_str",
    "JC.isprefixof_str",
    "JC.issuffixof_str",
    "JC.isprefixof_list",
    "JC.hassuffix_list_partial",
    "JC.issuffixof_list_partial",
    "JC.hasprefix_list_partial",
    "JC.hasprefix_list_wrong",
    "JC.suffix_list_empty_wrong",
    "JC.listPrefixSuffix_false",
    "JC.affixof_str_list"
   ],
   "note": "strings in full; on lists hasprefix is equality and the empty suffix is rejected (proved violations)"
  },
  {
   "property": "C48",
   "status": "proved",
   "theorems": [
    "JC.floor_spec",
    "JC.ceil_spec",
    "JC.round_spec",
    "JC.int_decides",
    "JC.bool_decides",
    "JC.float_accepts_numbers",
    "JC.tobool_spec",
    "JC.inverse_spec"
   ],
   "note": ""
  },
  {
   "property": "C49",
   "status": "proved",
   "theorems": [
    "JC.append_list",
    "JC.append_str",
    "JC.prepend_number_raises",
    "JC.insertat_list",
    "JC.len_spec",
    "JC.tolist_join",
    "JC.map_spec",
    "JC.filterCall_spec",
    "JC.filterTypes_spec",
    "JC.replace_self",
    "JC.replace_absent",
    "JC.replace_char_gone",
    "JC.insertat_text"
   ],
   "note": ""
  },
  {
   "property": "C50",
   "status": "proved",
   "theorems": [
    "JC.present_decides",
    "JC.required_decides",
    "JC.required_localKey_decides",
    "JC.required_foreignKey_vacuous",
    "JC.eq_decides",
    "JC.neq_decides",
    "JC.oneof_decides",
    "JC.eq_accepts_equal",
    "JC.neq_accepts_unequal",
    "JC.oneof_accepts_choices",
    "JC.oneof_text_choices",
    "JC.oneof_dict_choices",
    "JC.pyEq_iff",
    "JC.presentwith_decides",
    "JC.presentwithout_decides",
    "JC.default_spec",
    "JC.oneof_dict_other"
   ],
   "note": "required on a foreign key is never checked (finding)"
  },
  {
   "property": "C14",
   "status": "proved",
   "theorems": [
    "JC.tobo_spec",
    "JC.tobo_idem",
    "JC.tonext_spec",
    "JC.tobo_date",
    "JC.tonext_date",
    "JC.nextDay_ordinal"
   ],
   "note": "tonext past the year 9999 raises; dates and datetimes that are naive or UTC"
  },
  {
   "property": "C15",
   "status": "proved",
   "theorems": [
    "JC.date_roundtrip"
   ],
   "note": "fromisoformat/isoformat transcribed for the form YYYY-MM-DD"
  },
  {
   "property": "C16",
   "status": "partial",
   "theorems": [
    "JC.datetime_roundtrip_partial",
    "JC.datetime_roundtrip_naive",
    "JC.datetime_whole_second_lost",
    "JC.datetime_roundtrip_false",
    "JC.datetime_offset_dropped"
   ],
   "note": "violated by the code: a UTC datetime at a whole second becomes malformed JSON that is rejected on input; proved for all others"
  },
  {
   "property": "C51",
   "status": "partial",
   "theorems": [
    "JC.before_decides",
    "JC.after_decides",
    "JC.before_date_point_raises",
    "JC.before_date_point_false"
   ],
   "note": "violated by the code when a UTC datetime meets a plain date point (TypeError); proved whenever both are naive or both UTC"
  },
  {
   "property": "C17",
   "status": "partial",
   "theorems": [
    "JC.enum_transform_sound",
    "JC.enum_input_decided_partial",
    "JC.enum_input_decided_false",
    "JC.enum_value_form_silent",
    "JC.enum_inputall_loses_name",
    "JC.enum_tojson_shown",
    "JC.enum_name_roundtrip",
    "JC.enum_value_roundtrip",
    "JC.enum_lname_roundtrip",
    "JC.enum_lname_mixed_case_lost",
    "JC.enum_validate_decides",
    "JC.enum_forms_spec"
   ],
   "note": "violated by the code: once values are accepted unknown input and names become None silently; lowercase names of mixed case members are lost. Everything else is proved"
  },
  {
   "property": "C35",
   "status": "partial",
   "theorems": [
    "JC.olist_accounts",
    "JC.olist_contents",
    "JC.olist_history",
    "JC.olist_announced",
    "JC.olist_positions",
    "JC.olist_extend_iterator",
    "JC.olist_slice_iterator_unreported",
    "JC.olist_extend_self_overreports",
    "JC.olist_insert_negative",
    "JC.olist_reversed_slice_positions",
    "JC.olist_remove_reports_argument"
   ],
   "note": "Proved for all operation histories whose arguments are re-iterable, distinct from the list itself, forward slices. The full statement is false; witnesses: an iterator given to extend or to a slice assignment, extending a list by itself, negative insert index, reversed slices, removal by equality."
  },
  {
   "property": "C36",
   "status": "partial",
   "theorems": [
    "JC.odict_contents",
    "JC.odict_accounts",
    "JC.odict_keys",
    "JC.odict_announced",
    "JC.odict_history",
    "JC.odict_distinct",
    "JC.odict_setdefault_unreported",
    "JC.odict_update_iterator_lost",
    "JC.odict_ior_iterator_lost",
    "JC.odict_full_false"
   ],
   "note": "Proved for all operation histories without iterator arguments and without one-argument setdefault. The full statement is false; both exceptions are proved violations."
  },
  {
   "property": "C37",
   "status": "proved",
   "theorems": [
    "JC.toOwned_data",
    "JC.unownedCopy_data",
    "JC.toOwned_owner",
    "JC.unownedCopy_plain",
    "JC.own_round_trip",
    "JC.own_again",
    "JC.empty_key_shares_path"
   ],
   "note": "For all nested lists and dicts with string keys. The key path is the dotted join without empty components, so an entry under the empty key shares its parent's path."
  },
  {
   "property": "C38",
   "status": "partial",
   "theorems": [
    "JC.links_symmetric_partial",
    "JC.assign_links_partial",
    "JC.build_symmetric_partial",
    "JC.new_symmetric",
    "JC.set_symmetric",
    "JC.new_links_one",
    "JC.new_links_many",
    "JC.set_links_one",
    "JC.set_links_many",
    "JC.links_duplicates_break",
    "JC.links_exception_breaks"
   ],
   "note": "For all histories of assignments (also of reference ids), list and dict operations, constructions and `set` calls with input nested to any depth, over any number of objects. Missing: histories that insert an object already in the list or `*=` a list, operations that raise midway (both false, proved witnesses), in-place replacement in a list with reference keys, and input with `_add`/`_del` items, with the same object or primary key twice in one relation, or for a relation declared with transforming modifiers around the object type."
  },
  {
   "property": "C39",
   "status": "partial",
   "theorems": [
    "JC.local_key_mirrors_partial",
    "JC.local_key_cleared_partial",
    "JC.assign_sets_key",
    "JC.assign_id_unlinks",
    "JC.new_mirrors",
    "JC.set_mirrors",
    "JC.build_mirrors_partial",
    "JC.local_key_id_change_stale",
    "JC.local_key_list_replace_stale",
    "JC.new_late_key_stale"
   ],
   "note": "For all histories of assignments and list and dict operations over any number of objects, including ones that raise midway, as long as assignments to a reference id complete and no primary key is written (false otherwise, proved witness). For all histories that also construct objects and call set with nested dicts and objects at any depth (completing calls, text primary keys declared first in the class, no _add/_del); with a primary key declared after a relation construction leaves a stale id (proved witness). The list form of the relation is false for in-place replacement (proved witness)."
  },
  {
   "property": "C42",
   "status": "partial",
   "theorems": [
    "JC.guardCheck_ok_iff",
    "JC.guard_no_operator",
    "JC.guard_fn_refuses",
    "JC.guard_types_refuses",
    "JC.save_fails_closed",
    "JC.delete_fails_closed",
    "JC.tojson_fails_closed",
    "JC.tojson_permitted",
    "JC.guard_types_transform_escapes",
    "JC.guard_eager_not_unauthorized"
   ],
   "note": "Failing closed is proved in full for save, delete and tojson. The exception is not always the unauthorized one: errors raised by a guard itself, or by the transforming half of a types guard, pass through (proved witness)."
  },
  {
   "property": "C43",
   "status": "proved",
   "theorems": [
    "JC.save_writes_validated",
    "JC.save_order"
   ],
   "note": "guards, callbacks and storage are parameters that do not call save themselves"
  },
  {
   "property": "C44",
   "status": "partial",
   "theorems": [
    "JC.save_unlinked_evens",
    "JC.save_saves_unlinked_partial",
    "JC.save_misses_unlinked"
   ],
   "note": "Violated by the code: removing from the list while iterating skips every second unlinked object (proved for lists of any length). Proved: exactly the objects at even positions are saved."
  },
  {
   "property": "C40",
   "status": "proved",
   "theorems": [
    "JC.ograph_get_put",
    "JC.ograph_unlinkable",
    "JC.ograph_history",
    "JC.ograph_has",
    "JC.ograph_init_stops",
    "JC.merge_ok",
    "JC.merge_conflict",
    "JC.merge_error",
    "JC.linkGraph_shared",
    "JC.linkGraph_error",
    "JC.linkGraph_taken_key_silent",
    "JC.new_in_graph"
   ],
   "note": "Keys are the ids the objects have at the time of the operation. Members are the objects registered in a table; an object without primary key value stays outside."
  },
  {
   "property": "C41",
   "status": "proved",
   "theorems": [
    "JC.cgraph_history",
    "JC.cgraph_enum_history",
    "JC.cgraph_redefinition",
    "JC.cgraph_enum_redefinition",
    "JC.cgraph_fetch_class",
    "JC.cgraph_resolve",
    "JC.cgraph_enum_empty_name"
   ],
   "note": "enum redefinition raises AttributeError (finding); class identity is opaque"
  },
  {
   "property": "C45",
   "status": "partial",
   "theorems": [
    "JC.conf_values",
    "JC.conf_hooks",
    "JC.decorator_values",
    "JC.decorator_explicit_loses",
    "JC.conf_empty_graph"
   ],
   "note": "Proved for every option of a configuration. Through the decorator an explicit key strategy loses against camelize_json_keys=False, and an empty graph name counts as not given (both proved)."
  },
  {
   "property": "C31",
   "status": "partial",
   "theorems": [
    "JC.new_never_modified",
    "JC.new_previous_partial",
    "JC.new_modified_names_partial",
    "JC.NewObjDemo.new_object_gets_modified_field",
    "JC.NewObjDemo.new_list_change_records_previous"
   ],
   "note": "is_new and is_modified of a new object are proved unchanged by every history over all objects. Previous values and modified names hold in part; the full statement is false: changing a plain list in place on a new object records its previous value, and unlinking from the other side adds a modified name (both proved)."
  },
  {
   "property": "C32",
   "status": "proved",
   "theorems": [
    "JC.tracking_exact",
    "JC.assign_equal_nothing",
    "JC.assign_own_nothing",
    "JC.olist_add_container_diverges",
    "JC.odict_add_container_diverges",
    "JC.AssignDemo.tracking_misses_failed_sort"
   ],
   "note": "Assignments and every list and dict method on plain fields. Exceptions proved as witnesses: a sort that raises midway reports nothing, and adding a list or dict to an owned list or dict never returns (though the field is reported)."
  },
  {
   "property": "C33",
   "status": "proved",
   "theorems": [
    "JC.reset_restores",
    "JC.reset_refused",
    "JC.AssignDemo.reset_equal_not_identical",
    "JC.AssignDemo.reset_misses_untyped_list"
   ],
   "note": "Restored up to Python equality, after any mix of assignments and list and dict methods. In-place changes are covered for fields declared as list or dict; on other fields they are not recorded (proved witness)."
  },
  {
   "property": "C34",
   "status": "proved",
   "theorems": [
    "JC.update_unknown",
    "JC.update_plain"
   ],
   "note": "the write half is for plain fields; assigning a relation also updates the other side by design"
  },
  {
   "property": "C22",
   "status": "proved",
   "theorems": [
    "JC.strict_rejects",
    "JC.unknown_keys_ignored",
    "JC.unknown_keys_ignored_new",
    "JC.nested_unknown_keys_ignored",
    "JC.InputDemo.nested_strict_not_atomic"
   ],
   "note": "Strict rejection before any write for the receiver's own keys. A strict failure in a nested object comes after earlier fields were written (proved witness)."
  },
  {
   "property": "C23",
   "status": "partial",
   "theorems": [
    "JC.set_touches_named_partial",
    "JC.InputDemo.set_with_key_touches_unnamed",
    "JC.InputDemo.set_fills_unnamed_list"
   ],
   "note": "Proved for fields that take no part in a relation and input without a primary key for the receiver. The full statement is false: a nested dict with the receiver's key writes to the receiver, and a nonnull list relation holding None becomes an empty list (both proved)."
  },
  {
   "property": "C24",
   "status": "partial",
   "theorems": [
    "JC.readonly_kept_partial",
    "JC.InputDemo.readonly_relation_written"
   ],
   "note": "Proved for all call sequences and all fields that take no part in a relation. The full statement is false: the reference id of a readonly relation is not checked (proved witness)."
  },
  {
   "property": "C25",
   "status": "partial",
   "theorems": [
    "JC.writeonce_kept_partial",
    "JC.InputDemo.writeonce_relation_rewritten"
   ],
   "note": "As C24, for writeonce."
  },
  {
   "property": "C26",
   "status": "partial",
   "theorems": [
    "JC.writenonnull_kept_partial",
    "JC.keepsNonNull_of_chain",
    "JC.InputDemo.writenonnull_relation_cleared"
   ],
   "note": "As C24, for writenonnull; the hypothesis on the transforms is shown to follow from the chain."
  },
  {
   "property": "C27",
   "status": "partial",
   "theorems": [
    "JC.new_fields_partial",
    "JC.new_unlinked",
    "JC.ConstructDemo.new_with_key_overwritten"
   ],
   "note": "Proved for fields that take no part in a relation and input without a primary key, and for relation fields and reference ids when no relation is given. The full statement is false: with a primary key a nested dict with the same key overwrites the new object (proved witness)."
  },
  {
   "property": "C28",
   "status": "partial",
   "theorems": [
    "JC.tojson_hides_partial",
    "JC.tojson_no_hidden_entry",
    "JC.JsonDemo.union_shows_hidden_validity",
    "JC.JsonDemo.writeonly_relation_shows_id"
   ],
   "note": "Non-interference for whole object graphs, provided user code does not read hidden values itself and no union alternative contains an object; absence of entries in full. Without the condition on unions it is false (proved): a union validates the object to choose an alternative, so the JSON shows whether a hidden value is valid. A writeonly local key relation still outputs its id (proved)."
  },
  {
   "property": "C29",
   "status": "proved",
   "theorems": [
    "JC.tojson_terminates",
    "JC.JsonDemo.tojson_embedded_cycle_diverges"
   ],
   "note": "Objects nested through relation fields only, as in the statement; an embedded cycle never returns (proved witness)."
  },
  {
   "property": "C30",
   "status": "proved",
   "theorems": [
    "JC.tojson_entries",
    "JC.instance_entries"
   ],
   "note": "The root theorem assumes distinct JSON names; the theorem for objects at any depth does not. Nested objects also leave out relations that lead back and relations of classes already met."
  },
  {
   "property": "C52",
   "status": "proved",
   "theorems": [
    "JC.tojson_changes_nothing",
    "JC.validate_visits_once"
   ],
   "note": "No hypotheses. Validators and getters are functions that only read objects."
  },
  {
   "property": "C53",
   "status": "partial",
   "theorems": [
    "JC.annotation_text_means_partial",
    "JC.annotation_required_iff",
    "JC.annotation_object_means_partial",
    "JC.annotation_means_false",
    "JC.annot_nested_dict",
    "JC.annot_union_none",
    "JC.annot_union_nested",
    "JC.annot_pipe_optional",
    "JC.annot_forward_required",
    "JC.annot_object_pipe",
    "JC.annot_link_union",
    "JC.unclosed_link_refused"
   ],
   "note": "As text: no comma inside the item of a dict or (except that of a dict) inside a member of Union[...], no None in Union[...], None admitted by an alternative only beside None. As object: no X | Y, no forward references, flat unions. Outside these the code goes wrong, shown by the witnesses."
  },
  {
   "property": "C54",
   "status": "partial",
   "theorems": [
    "JC.keyset_exact_partial",
    "JC.keyset_bad_path",
    "JC.keyset_object",
    "JC.keyInt_str",
    "JC.KeySetDemo.keyset_container_diverges",
    "JC.KeySetDemo.keyset_ignores_readonly",
    "JC.KeySetDemo.keyset_ignores_scalar",
    "JC.keyInt_plus"
   ],
   "note": "Fields that are not relations, values that are not lists or dicts; for those the call never returns, and the write rule of the field is not applied (witnesses)."
  },
  {
   "property": "C55",
   "status": "partial",
   "theorems": [
    "JC.json_round_trip_partial",
    "JC.survives_str",
    "JC.survives_int",
    "JC.survives_bool",
    "JC.survives_float",
    "JC.survives_date",
    "JC.survives_datetime",
    "JC.survives_enum_name",
    "JC.RoundTripDemo.event_fits",
    "JC.RoundTripDemo.null_becomes_default",
    "JC.RoundTripDemo.equal_keys_merge",
    "JC.RoundTripDemo.nested_writeonce_ignored"
   ],
   "note": "Objects without relations, with readable and writable fields. It fails for a null field with a default, nested objects with equal keys and nested write-once fields with a default (witnesses), and for datetimes at a whole second (C16)."
  },
  {
   "property": "C56",
   "status": "partial",
   "theorems": [
    "JC.opposite_total_partial",
    "JC.opposite_iff_partial",
    "JC.opposite_mutual_partial",
    "JC.relations_of_declarations_partial",
    "JC.declared_links_symmetric_partial",
    "JC.resolve_later",
    "JC.inherited_relation_lost",
    "JC.subclass_breaks_links",
    "JC.ambiguous_relation_one_sided"
   ],
   "note": "Proved for all programs in which no two classes share a types object (so no relation field written with types is inherited): the opposite is exactly the field declared as the other end, mutually, and it does not matter when it is looked up. With a subclass the claim is false for the code: defining it makes the base class's fields lose their opposite (general theorem and end to end witness)."
  },
  {
   "property": "C57",
   "status": "partial",
   "theorems": [
    "JC.validate_types_iff",
    "JC.validate_types_message",
    "JC.validate_callable_iff",
    "JC.validate_callable_message",
    "JC.oneisvalid_iff_partial",
    "JC.oneisvalid_ignores_callables",
    "JC.oneisvalid_callable_broken",
    "JC.transform_types_iff",
    "JC.validate_marked_iff",
    "JC.transform_marked_iff",
    "JC.arranged_exists",
    "JC.eager_error_escapes",
    "JC.SubPipeMarksDemo.oneisvalid_eager_broken",
    "JC.compare_iff",
    "JC.compare_instance_field_broken",
    "JC.compare_in_collection_broken",
    "JC.callable_applied",
    "JC.invalid_refuses",
    "JC.isobjof_iff"
   ],
   "note": "Nested pipelines with and without marks, except those with eager after preserialize. An exception raised by a transform of a pipeline, or by a check before an eager mark, escapes (so oneisvalid does not go on). For oneisvalid only alternatives given as pipelines: callables are never called, and compare raises on fields holding objects and in objects inside lists (general theorems)."
  },
  {
   "property": "C58",
   "status": "partial",
   "theorems": [
    "JC.cancu_iff",
    "JC.canc_iff",
    "JC.canu_iff",
    "JC.refused_message",
    "JC.canr_shows",
    "JC.canr_hides",
    "JC.guard_checked_by_validate_partial",
    "JC.guard_checked_by_save_partial",
    "JC.unreadable_not_shown",
    "JC.owner_only",
    "JC.isthis_iff",
    "JC.callable_checker_broken",
    "JC.keyless_operator_passes",
    "JC.PermitDemo.object_field_guard_bypassed",
    "JC.PermitDemo.object_field_guard_crashes",
    "JC.PermitDemo.unreadable_relation_key_shown"
   ],
   "note": "Checkers given as pipelines, on fields that do not hold an object, of the object on which the method is called. Outside of this the code violates it: callable checkers always raise, guards on fields holding an object look at the wrong object, the reference id of an unreadable relation is shown, objects without keys count as equal."
  },
  {
   "property": "C59",
   "status": "partial",
   "theorems": [
    "JC.opby_assigns_partial",
    "JC.opby_direct_completes",
    "JC.opby_only_records",
    "JC.opby_satisfies_check",
    "JC.asop_iff",
    "JC.asop_in_list_broken",
    "JC.asop_checked_by_validate_partial",
    "JC.asop_checked_by_save_partial",
    "JC.asop_ignores_operator_broken",
    "JC.three_parameters_broken",
    "JC.OperatorDemo.forged_author_valid",
    "JC.OperatorDemo.post_in_list_unchecked",
    "JC.OperatorDemo.post_in_list_crashes"
   ],
   "note": "Assignment is proved for fields without a loaded object. The check only asks for some reference id: the code accepts ids written by hand, does nothing for transformers with three parameters, and looks at the wrong object inside lists."
  },
  {
   "property": "C60",
   "status": "proved",
   "theorems": [
    "JC.get_found",
    "JC.get_only",
    "JC.get_raises_only",
    "JC.get_text",
    "JC.get_compose",
    "JC.envName_iff",
    "JC.load_value",
    "JC.load_only",
    "JC.load_fails_iff",
    "JC.load_get",
    "JC.original_name_unknown",
    "JC.colliding_names_broken"
   ],
   "note": "Numbers in key paths are read as an optional sign and ASCII digits. Two consequences a user may not expect are proved besides: names as spelled in the file are unknown to lookups, and of two names with the same form one is lost."
  },
  {
   "property": "C61",
   "status": "partial",
   "theorems": [
    "JC.uploader_iff",
    "JC.requests_consistent",
    "JC.camel_uploader_undefined",
    "JC.UConfDemo.camel_uploader_broken"
   ],
   "note": "For names in underscore form (without separators, not a number). Violated for other names: the entry is renamed when the file is loaded and the request for its name in the file fails."
  },
  {
   "property": "C62",
   "status": "partial",
   "theorems": [
    "JC.declared",
    "JC.row_exists",
    "JC.row_unique",
    "JC.decided_unique",
    "JC.same_row_same_definition",
    "JC.declaration_kept",
    "JC.class_tables",
    "JC.owner_is_last_user",
    "JC.named_class_partial",
    "JC.unnamed_class",
    "JC.named_class_remembered",
    "JC.shared_declaration_broken",
    "JC.MarksDemo.stale_class_broken",
    "JC.list_relation_nullable_broken",
    "JC.asopd_after_asop_broken",
    "JC.temp_lost_broken",
    "JC.stale_foreign_key_broken"
   ],
   "note": "Definitions, class tables and independence of declarations are proved for all programs. The lookup of named classes holds for a declaration used in one class and before any lookup on a declaration it is made from; both conditions are needed (witnesses). Combinations where marks overrule each other against their documentation are proved as well."
  },
  {
   "property": "C63",
   "status": "partial",
   "theorems": [
    "JC.match_finds",
    "JC.match_anchored",
    "JC.match_others",
    "JC.hexcolor_passes",
    "JC.hexcolor_input",
    "JC.hexcolor_tail_broken",
    "JC.email_passes",
    "JC.email_tail_broken",
    "JC.email_bar_broken",
    "JC.url_passes",
    "JC.url_broken",
    "JC.securepw_passes",
    "JC.securepw_newline_broken",
    "JC.securepw_symbols_broken",
    "JC.kinds_pass",
    "JC.kinds_ascii",
    "JC.formats_others",
    "JC.replacer_rewrites",
    "JC.replacer_no_match",
    "JC.replacer_word",
    "JC.replacer_others",
    "JC.ends_plain"
   ],
   "note": "The exact set of accepted strings is proved for every check. It is larger than the format: hexcolor and email ignore what follows, url and securepw and every ^...$ pattern accept a final line break, url accepts 999.999.999.999, email accepts bars in the last label; securepw does not count % and ^ as symbols. match is characterised for patterns without anchors and for ^r$; replacer for patterns that do not match the empty text."
  },
  {
   "property": "C64",
   "status": "partial",
   "theorems": [
    "JC.save_at_rest",
    "JC.setonsave_value",
    "JC.onsave_called",
    "JC.onupdate_called",
    "JC.onwrite_called",
    "JC.onupdate_skips",
    "JC.onwrite_skips",
    "JC.unforced_kept",
    "JC.unloaded_kept",
    "JC.onsave_empty_relation",
    "JC.SaveModsDemo.nested_setter_marks_outer",
    "JC.SaveModsDemo.nested_setter_replaces_instance",
    "JC.SaveModsDemo.nested_onupdate_missed",
    "JC.SaveModsDemo.listed_onupdate_raises",
    "JC.SaveModsDemo.clean_onsave_skipped",
    "JC.SaveModsDemo.set_back_is_update",
    "JC.onwrite_items"
   ],
   "note": "Proved for the saved object itself, with related objects that are unmodified: setters, callbacks, order, frame, relations that are not loaded stay so; and for graphs of unmodified objects that nothing changes. False for changed objects inside the saved one: their setters' results are assigned to the outer object's field on the way, their update and write callbacks consult the outer object. onsave is not called for unmodified objects although documented; a value set and set back counts as updated."
  },
  {
   "property": "C65",
   "status": "partial",
   "theorems": [
    "JC.toint_exact",
    "JC.toint_rejects",
    "JC.toint_others",
    "JC.tostr_int",
    "JC.tostr_toint",
    "JC.tostr_toint_bool",
    "JC.tostr_tofloat",
    "JC.div_spec",
    "JC.pow_spec",
    "JC.sqrt_spec",
    "JC.div_pow_ignore",
    "JC.toupper_ascii",
    "JC.tolower_ascii",
    "JC.tocap_ascii",
    "JC.totitle_ascii",
    "JC.case_idem",
    "JC.case_others",
    "JC.ConvertDemo.toint_raises",
    "JC.ConvertDemo.toint_keeps_float",
    "JC.tofloat_bool"
   ],
   "note": "Exact, except for the kind of failure: a text of no integer and a division by zero raise exceptions that are no validation errors. Floats stay floats under toint; a bool written as text cannot be read back. Division and power on integers, with exact rational results (rounding to a float is not modelled); case on ASCII texts; float texts and roots are parameters."
  },
  {
   "property": "C66",
   "status": "partial",
   "theorems": [
    "JC.randomText_bool",
    "JC.randomdigits_spec",
    "JC.randomalnums_spec",
    "JC.randomalnumpuncs_spec",
    "JC.randomdigits_reaches",
    "JC.randomint_spec",
    "JC.mongoid_spec",
    "JC.salt_checkpw",
    "JC.bcryptPart_short",
    "JC.salt_twice",
    "JC.checkpw_needs_text",
    "JC.checkpw_raises",
    "JC.salt_others",
    "JC.GenerateDemo.twelve_digits",
    "JC.GenerateDemo.never_11",
    "JC.GenerateDemo.long_passwords",
    "JC.randomfloat_between"
   ],
   "note": "Given the laws of random.sample, randrange and bcrypt. Violated by the code: texts longer than the alphabet (11 digits) raise a ValueError, characters never repeat, so most texts cannot be generated; passwords longer than 72 bytes are accepted with any ending; a stored text that is no hash raises a ValueError."
  },
  {
   "property": "C67",
   "status": "proved",
   "theorems": [
    "JC.relation_changes_stay_local",
    "JC.unconnected_untouched",
    "JC.plain_assignment_alone"
   ],
   "note": "The internal table of known objects (`_graph`) is excepted: merging tables reaches every object ever connected. Arguments of list operations are plain collections."
  },
  {
   "property": "C68",
   "status": "partial",
   "theorems": [
    "JC.include_keeps_status",
    "JC.include_symmetric",
    "JC.include_reference",
    "JC.include_members",
    "JC.include_leaves_rest",
    "JC.fobj_loaded",
    "JC.fobj_loads",
    "JC.SymDemo.include_reset_forgets",
    "JC.SymDemo.include_marks_loaded",
    "JC.SymDemo.include_again_raises"
   ],
   "note": "Given that the ORM answers truthfully and only adds objects. Reference lists kept by local keys: symmetry only, not the ids. Violated by the code: loaded objects are marked as modified, a later reset takes the loaded object and the reference id away although the object is not modified, including a list again raises a graph conflict when the ORM makes new objects and leaves the object marked as modified."
  },
  {
   "property": "C69",
   "status": "partial",
   "theorems": [
    "JC.datetime_reads_iff",
    "JC.datetime_rejects",
    "JC.date_reads_iff",
    "JC.date_rejects",
    "JC.datetime_offset_ignored",
    "JC.datetime_of_date",
    "JC.date_of_datetime"
   ],
   "note": "accepted texts and their meaning as an iff against a grammar of its own (`DateTimeText`); violated by the code for offsets: `2024-02-29T12:00+08:00` is read as noon UTC, eight hours late, for every text and offset (`datetime_offset_ignored`). Texts are read as `fromisoformat` of Python 3.10 does; the further forms of later versions and offsets with seconds are not modelled"
  },
  {
   "property": "C70",
   "status": "partial",
   "theorems": [
    "JC.nested_reset",
    "JC.nested_noticed",
    "JC.nested_local",
    "JC.nested_current",
    "JC.persisted_stored",
    "JC.persisted_raises",
    "JC.persisted_nested",
    "JC.nested_kept_spoils",
    "JC.nested_any_kept",
    "JC.nested_stale_path"
   ],
   "note": "one object without relations; containers have an identity, so aliasing is covered. Violated by the code in four cases, each proved: a list kept by the program while its field was assigned another value and then changed spoils `reset` (`nested_kept_spoils`); a list in a field not declared as list or dict is not restored (`nested_any_kept`); after a change in a container inside another `persisted_modified_fields` raises (`persisted_nested`); a container that moved within its list is recorded under the path it had before (`nested_stale_path`). Putting a list or dict into an owned one never returns (`keyset_container_diverges`) and is excluded, as are iterators as arguments and `setdefault(k)` (see C35, C36)"
  },
  {
   "property": "C71",
   "status": "proved",
   "theorems": [
    "JC.save_hooks",
    "JC.delete_hooks",
    "JC.delete_permitted"
   ],
   "note": "Callbacks are arbitrary effectful functions on the objects that do not call save or delete themselves."
  },
  {
   "property": "C72",
   "status": "proved",
   "theorems": [
    "JC.list_merges",
    "JC.set_list_merges",
    "JC.new_list_merges"
   ],
   "note": "Dicts are flat (they give no relations themselves) and the primary key field takes what it is given and has no default. list_merges is about the transform of a field with any mix of modifiers that keep the value; the other two are about set and the constructor for an embedded list. A stored value may be one that Python calls equal to the given one (1 and True), which is what assignment does."
  },
  {
   "property": "C73",
   "status": "partial",
   "theorems": [
    "JC.validate_verdict",
    "JC.validate_reports_more",
    "JC.validate_crash",
    "JC.is_valid_spec",
    "JC.ModeDemo.union_callable_violated",
    "JC.ModeDemo.union_objects_violated"
   ],
   "note": "Proved for all graphs and settings of classes whose unions choose between plain types. False for other unions, by two witnesses: with all_fields=True the checks of a failing alternative go on after the first error, so a callable written for the alternative's type raises a TypeError on a valid value (`union_callable_violated`), and objects seen there count as checked, so an invalid object is accepted (`union_objects_violated`)."
  },
  {
   "property": "C74",
   "status": "partial",
   "theorems": [
    "JC.relation_changes_reported",
    "JC.modified_flag_follows",
    "JC.program_changes_reported",
    "JC.program_modified_flag",
    "JC.TrackDemo.unlinked_not_modified",
    "JC.TrackDemo.unlinked_not_reported",
    "JC.TrackDemo.ids_reversed_misreported",
    "JC.TrackDemo.failed_append_unreported",
    "JC.saved_is_clean",
    "JC.changes_since_save",
    "JC.flag_since_save"
   ],
   "note": "Proved for every field of every persisted object over all completed programs of assignments, list and dict methods, set, update and constructors (unions without object types), with one exception that the code has: a single relation cleared from the other side. Its name is not in modified_fields (foreign key) or it is there while is_modified stays False (local key); both are shown on concrete worlds. Sorting reference ids records a name that is no field, and an operation that raises can leave a change unreported: shown as well."
  },
  {
   "property": "C75",
   "status": "partial",
   "theorems": [
    "JC.set_same_arguments",
    "JC.new_same_arguments",
    "JC.reordered_same",
    "JC.renamed_same",
    "JC.renamed_ref_same",
    "JC.SpellDemo.primary_spelling_broken"
   ],
   "note": "Proved except for the primary key, where it is false: dicts with the same primary key are merged into one object only if the key is given under its own name, not under its name in JSON. Classes whose fields have an eager mark before an object are not covered. `SameArguments` and `SameSense` say what it means that two inputs say the same; order and single renamed keys are instances."
  },
  {
   "property": "C76",
   "status": "partial",
   "theorems": [
    "JC.complete_keeps_report",
    "JC.pick_raises",
    "JC.omit_raises",
    "JC.completed_assign_raises",
    "JC.assign_as_usual",
    "JC.assign_new_as_usual"
   ],
   "note": "True for the report of modifications over complete. False for the rest: pick and omit raise an AttributeError for every object (is_partial is a property without setter); after complete, `_modified_fields` is a list, and assigning a field raises an AttributeError after the object has been flagged as modified. What tojson outputs for an object with picks is stated in C30. Relations assigned after complete are not modelled."
  },
  {
   "property": "C77",
   "status": "partial",
   "theorems": [
    "JC.assign_is_ordinary",
    "JC.assign_stopped",
    "JC.update_is_ordinary",
    "JC.setter_changes_reported",
    "JC.setter_names_fields",
    "JC.readonly_calculated",
    "JC.callable_setter",
    "JC.pipeline_setter",
    "JC.get_after_set",
    "JC.input_drops_calculated",
    "JC.input_without_calculated",
    "JC.CalcDemo.both_set",
    "JC.CalcDemo.set_drops_update_sets",
    "JC.CalcDemo.update_readonly_midway",
    "JC.pipeline_setter_marked"
   ],
   "note": "Proved for assignment and update. Violated for set and constructors: a value given for a calculated field passes the field's pipeline and is dropped (input_drops_calculated, input_without_calculated), while update calls the setter (CalcDemo.set_drops_update_sets); update with a read-only calculated field raises after earlier names have been assigned (CalcDemo.update_readonly_midway). Setters that catch exceptions, construct objects or do not terminate are not modelled; the nesting of setters is limited by a number, for every such number."
  },
  {
   "property": "C78",
   "status": "partial",
   "theorems": [
    "JC.modified_fields_name_fields",
    "JC.program_names_fields",
    "JC.calculated_not_modified",
    "JC.TrackDemo.reversed_ids_reported"
   ],
   "note": "Proved for all operations except sorting and reversing lists of reference ids, where the property fails: lists such as tag_ids are reported under their own name (TrackDemo.reversed_ids_reported). For _add and _del commands in input the conclusion is weaker: the model lets them name any field. Names recorded on the other side of a relation are only shown to be relations of some class. Key paths into nested lists and dicts of a field are not modelled (methods are called on the list or dict held by a field)."
  },
  {
   "property": "C79",
   "status": "partial",
   "theorems": [
    "JC.remove_object",
    "JC.remove_id",
    "JC.remove_back",
    "JC.TrackDemo.unloaded_id_removed",
    "JC.TrackDemo.unloaded_other_removed"
   ],
   "note": "Full effect for all states with as many ids as objects. The claim is false when some ids have no loaded object (unloaded_id_removed): removing the id of a loaded object then can leave it linked. remove_id needs an id equal to itself that no other object of the list has."
  },
  {
   "property": "C80",
   "status": "partial",
   "theorems": [
    "JC.append_object",
    "JC.append_back",
    "JC.assign_moves",
    "JC.assign_first",
    "JC.append_moves",
    "JC.assign_none",
    "JC.remove_single",
    "JC.assign_key",
    "JC.assign_partner",
    "JC.assign_partner_back",
    "JC.leave_partner",
    "JC.leave_partner_back"
   ],
   "note": "Making and moving links: for completed operations (merging object graphs raises when two objects claim one id; appending an object without id raises). Ending links: completion is proved. Whole lists of a one-to-many relation are the subject of C84. Whole lists are C84 and C85. Not covered: objects linked to themselves."
  },
  {
   "property": "C81",
   "status": "partial",
   "theorems": [
    "JC.date_formatted",
    "JC.datetime_formatted_partial",
    "JC.plain_formatted",
    "JC.datetime_whole_second_raises",
    "JC.formatter_first_raises"
   ],
   "note": "Violated for UTC datetimes at a whole second: tojson raises (datetime_whole_second_raises), and with fmtd before the type every output raises (formatter_first_raises). strftime is a parameter."
  },
  {
   "property": "C82",
   "status": "partial",
   "theorems": [
    "JC.upload_confined",
    "JC.upload_stored",
    "JC.uploads_never_overwrite",
    "JC.urls_differ",
    "JC.extension_kept",
    "JC.no_extension",
    "JC.s3_stored",
    "JC.other_arguments",
    "JC.localDir_iff",
    "JC.alioss_loses",
    "JC.no_url_leaves_file",
    "JC.text_raises",
    "JC.UploadDemo.no_endpoint",
    "JC.relative_dir",
    "JC.absolute_dir",
    "JC.UploadDemo.outside_public"
   ],
   "note": "Violated: Aliyun uploaders upload nothing and return None (alioss_loses); with no url configured the file is stored and then TypeError is raised (no_url_leaves_file); the URL of an earlier upload is no acceptable input (text_raises); an S3 uploader without endpoint_url returns None/bucket/name (UploadDemo.no_endpoint). uuid4, lower, the file system's refusals and the S3 service are parameters; links and .. in the configured directory are not followed."
  },
  {
   "property": "C83",
   "status": "partial",
   "theorems": [
    "JC.tojson_plain",
    "JC.valid_tojson_plain",
    "JC.str_checks",
    "JC.int_checks",
    "JC.bool_checks",
    "JC.float_checks",
    "JC.date_makes",
    "JC.datetime_makes",
    "JC.enum_makes",
    "JC.fmtd_keeps",
    "JC.canr_keeps",
    "JC.PlainDemo.any_not_plain",
    "JC.PlainDemo.list_not_plain",
    "JC.dumps_writes_tojson",
    "JC.dumps_completes",
    "JC.PlainDemo.any_not_written"
   ],
   "note": "tojson_plain holds for all declarations and graphs; valid_tojson_plain derives its hypotheses from validate() for typed declarations whose unions consist of simple types. The claim fails for untyped fields (any_not_plain, list_not_plain). Of json.dumps the data it writes is modelled, not the text; NaN and infinities count as numbers, as json.dumps writes them."
  },
  {
   "property": "C84",
   "status": "proved",
   "theorems": [
    "JC.assign_list_effect",
    "JC.list_method_effect",
    "JC.list_removal_effect",
    "JC.clear_effect",
    "JC.pop_effect",
    "JC.delete_effect",
    "JC.insert_effect",
    "JC.extend_effect",
    "JC.replace_effect",
    "JC.regrouped_members"
   ],
   "note": "Slices, *= and other operations: list_method_effect applies when the operation's reports are removals followed by additions. Completion is assumed where an object joins (merging object graphs raises when two objects claim one id). The code walks the live list while linking; the proofs show that list is not changed meanwhile."
  },
  {
   "property": "C85",
   "status": "proved",
   "theorems": [
    "JC.assign_keyed_effect",
    "JC.keyed_removal_effect",
    "JC.keyed_clear_effect",
    "JC.keyed_pop_effect",
    "JC.keyed_delete_effect",
    "JC.keyed_insert_effect",
    "JC.keyed_extend_effect",
    "JC.retagged_tagged",
    "JC.assign_unkeyed_effect",
    "JC.unkeyed_method_effect",
    "JC.unkeyed_removal_effect",
    "JC.unkeyed_clear_effect",
    "JC.unkeyed_pop_effect",
    "JC.unkeyed_delete_effect",
    "JC.unkeyed_insert_effect",
    "JC.unkeyed_extend_effect",
    "JC.unkeyed_replace_effect",
    "JC.TrackDemo.retag0",
    "JC.TrackDemo.relist2"
   ],
   "note": "Specification in Props/ManyLists.lean: Holds, Tagged, Fresh, Retagged for the side with ids; Listed, Welcome, Relisted for the side without. Item assignment from the side with ids is not in the statement: it leaves stale ids (C39). Hypotheses: 6 nested calls of fuel, lists without repetition."
  },
  {
   "property": "C86",
   "status": "partial",
   "theorems": [
    "JC.eq_iff_alike",
    "JC.eq_limit",
    "JC.eq_other_class",
    "JC.eq_self",
    "JC.eq_returns",
    "JC.TwinDemo.twins_compare",
    "JC.TwinDemo.twins_alike"
   ],
   "note": "The meaning is proved for every comparison that returns. The code violates the rest: two new objects that look the same and whose relations lead back to them cannot be compared, RecursionError is raised whatever the limit (twins_compare), though they are alike (twins_alike)."
  },
  {
   "property": "C87",
   "status": "partial",
   "theorems": [
    "JC.eq_is_identity",
    "JC.op_by_identity",
    "JC.op_keeps_apart",
    "JC.history_by_identity",
    "JC.TwinDemo.twin_not_linked",
    "JC.TwinDemo.twin_linked_by_identity",
    "JC.TwinDemo.twin_removed",
    "JC.TwinDemo.twins_assign",
    "JC.update_by_identity",
    "JC.reset_by_identity",
    "JC.TwinDemo.twin_update"
   ],
   "note": "Proved for objects told apart by leading fields; the code violates it for new objects with the same contents: a second post like the first is not entered in its author's list, removing one of two alike posts removes the other, giving a post to an alike user raises RecursionError. `update` and `reset` are covered; setting and creating from input are not (they go through the same assignments, but a new object is not told apart before its fields are filled)."
  },
  {
   "property": "C88",
   "status": "proved",
   "theorems": [
    "JC.previous_id_kept",
    "JC.previous_value_kept",
    "JC.reset_restores_field",
    "JC.previous_id_new",
    "JC.primary_keeps_previous",
    "JC.KeyDemo.bare_key_raises"
   ],
   "note": "Programs do not call methods of a list or dict that is itself the key. A class whose key is not declared with `primary` of `types` and has no recorded previous value makes `_previous_id` raise after a change (proved witness)."
  },
  {
   "property": "C89",
   "status": "partial",
   "theorems": [
    "JC.fetched_check",
    "JC.fetched_check_iff",
    "JC.fetched_check_in_list",
    "JC.FetchDemo.missing_key_matches"
   ],
   "note": "Proved for fields of objects, keys and values kept in plain fields, and an ORM that answers truthfully without changing the objects. Violated by the code: an object without a key matches a record without a key (missing_key_matches); for the items of lists and dicts the check raises AttributeError (fetched_check_in_list)."
  },
  {
   "property": "C90",
   "status": "proved",
   "theorems": [
    "JC.set_again",
    "JC.set_split",
    "JC.RepeatDemo.again_run",
    "JC.RepeatDemo.nan_again",
    "JC.RepeatDemo.nested_again"
   ],
   "note": "set_again and set_split for plain values. Outside the statement, shown by RepeatDemo.nan_again and nested_again: NaN is recorded as a change each time, and an object given as a dict is made anew each time."
  },
  {
   "property": "C91",
   "status": "proved",
   "theorems": [
    "JC.new_then_set",
    "JC.AtOnceDemo.equal_kept",
    "JC.AtOnceDemo.once_with_default",
    "JC.AtOnceDemo.key_later"
   ],
   "note": "The three cases left out by the statement are shown to differ: a value equal to the default, a write-once field with a default, a primary key set later."
  },
  {
   "property": "C92",
   "status": "proved",
   "theorems": [
    "JC.put_back",
    "JC.flat_comes_back",
    "JC.tojson_origin",
    "JC.PutBackDemo.back",
    "JC.PutBackDemo.memo_json",
    "JC.PutBackDemo.appended_again",
    "JC.PutBackDemo.nested_replaced",
    "JC.PutBackDemo.list_emptied"
   ],
   "note": "The required conditions are necessary: an appending transform is applied again, a nested object is replaced by a new one, and a required relation list that is None becomes empty (three witnesses)."
  },
  {
   "property": "C93",
   "status": "proved",
   "theorems": [
    "JC.options_only_add",
    "JC.nulls_only",
    "JC.same_output",
    "JC.JsonOptionsDemo.classes_out",
    "JC.JsonOptionsDemo.plain_run",
    "JC.JsonOptionsDemo.full_run",
    "JC.JsonOptionsDemo.null_replaces"
   ],
   "note": "For fields with one converting type modifier, not for unions (an alternative is chosen by validation). Distinct JSON names are necessary: otherwise a null replaces a value (witness)."
  },
  {
   "property": "C94",
   "status": "partial",
   "theorems": [
    "JC.most_derived_counts",
    "JC.base_fields_first",
    "JC.field_as_declared",
    "JC.no_other_fields",
    "JC.no_mutable_default",
    "JC.DeclareDemo.sub_line",
    "JC.DeclareDemo.factory_not_called",
    "JC.DeclareDemo.two_bases_lose_override",
    "JC.DeclareDemo.inherited_types_shared",
    "JC.first_with_field",
    "JC.names_of_all_bases",
    "JC.DeclareDemo.two_bases_stated"
   ],
   "note": "Which declaration counts is proved for single inheritance; the names, and what counts in general (the first class in the method resolution order that has the field), and mutable defaults for any inheritance. Violated for default_factory (the object gets dataclasses.MISSING) and with two base classes (an override can be lost). JSON objects as defaults are not considered."
  },
  {
   "property": "C95",
   "status": "partial",
   "theorems": [
    "JC.nothing_missing",
    "JC.install_only_adds",
    "JC.missing_listed",
    "JC.listed_facts",
    "JC.occurring_adds_nothing",
    "JC.listed_once",
    "JC.PackagesDemo.both_listed",
    "JC.PackagesDemo.longer_name_hides",
    "JC.PackagesDemo.unended_line_joined",
    "JC.PackagesDemo.no_file_raises"
   ],
   "note": "Proved for files whose lines are all ended, with \"listed\" meaning that the name occurs in a line. Violated: a longer name hides a package, an unended last line is joined with the new one, and without the file the declaration raises after the installation."
  }
 ]
}