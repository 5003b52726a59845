{
 "claims": [
  {
   "property": "C01",
   "status": "partial",
   "theorems": [
    "Verif.Props.C01_exact",
    "Verif.Props.C01_exact_unconstrained",
    "Verif.Props.C01_exact_root",
    "Verif.Props.C01_integer_partial",
    "Verif.Props.C01_unconstrained_partial",
    "Verif.Props.C01_range_partial",
    "Verif.Props.C01_semi_partial",
    "Verif.Props.C01_outside_partial",
    "Verif.Props.C01_inside_partial"
   ],
   "note": "Every INTEGER schema and value for which the code is right, at any position of a message; excluded: F4, F6, F18. C01_exact: exactly these values survive (constraints that do not accept everything because of the markers of members, F25)."
  },
  {
   "property": "C02",
   "status": "partial",
   "theorems": [
    "Verif.Props.C02_exact",
    "Verif.Props.C02_enumerated_partial"
   ],
   "note": "Items numbered 0..n-1, any position; more than 65536 root items excluded (F16). C02_exact: exactly these items survive."
  },
  {
   "property": "C03",
   "status": "proved",
   "theorems": [
    "Verif.Props.C03_boolean_one_bit",
    "Verif.Props.C03_boolean"
   ],
   "note": "Both values, any bit position."
  },
  {
   "property": "C04",
   "status": "partial",
   "theorems": [
    "Verif.Props.C04_exact",
    "Verif.Props.C04_alone",
    "Verif.Props.C04_exact_unconstrained",
    "Verif.Props.C04_bitstring_partial",
    "Verif.Props.C04_fixed",
    "Verif.Props.C04_range"
   ],
   "note": "Any position; excluded: empty strings (F3), length 16384 (F5), extensible strings outside the root whose length is no multiple of 8 (F7). C04_exact, C04_alone: exactly these survive inside messages, and alone."
  },
  {
   "property": "C05",
   "status": "partial",
   "theorems": [
    "Verif.Props.C05_exact",
    "Verif.Props.C05_alone",
    "Verif.Props.C05_exact_range",
    "Verif.Props.C05_octetstring_partial",
    "Verif.Props.C05_fixed",
    "Verif.Props.C05_unconstrained_partial"
   ],
   "note": "Any position; excluded: F1, F2, F5, F8, F9, F18. C05_exact, C05_alone: exactly these survive inside messages, and alone."
  },
  {
   "property": "C06",
   "status": "partial",
   "theorems": [
    "Verif.Props.C06_elements",
    "Verif.Props.C06_sequence_of_partial",
    "Verif.Props.C06_exact",
    "Verif.Props.C06_other_lengths"
   ],
   "note": "Any element type and count for which the code is right; excluded: F4, F5, F17, F18. C06_exact, C06_elements: exactly these counts survive, whatever the elements arrive as."
  },
  {
   "property": "C07",
   "status": "partial",
   "theorems": [
    "Verif.Props.C07_alternative",
    "Verif.Props.C07_alternative_exact",
    "Verif.Props.C07_addition_alone",
    "Verif.Props.C07_addition_exact",
    "Verif.Props.C07_group_alone",
    "Verif.Props.C07_group_exact",
    "Verif.Props.C07_choice_root_partial",
    "Verif.Props.C07_choice_addition_partial",
    "Verif.Props.C07_choice_group_partial"
   ],
   "note": "Root, addition and group alternatives (C07_alternative: in the root whatever the value arrives as; C07_alternative_exact: with at most 255 alternatives nothing else); the selected value must itself be carried faithfully, and for a message of its own not be an empty BIT STRING (F87). `C07_addition_alone`, `C07_group_alone`, `C07_addition_exact`, `C07_group_exact`: an alternative behind the marker arrives exactly as its value does in a message of its own of at most 16383 octets."
  },
  {
   "property": "C08",
   "status": "partial",
   "theorems": [
    "Verif.Props.C08_components",
    "Verif.Props.C08_sequence_root_partial"
   ],
   "note": "The components that are sent must themselves be carried faithfully; an OPTIONAL empty SEQUENCE (OF) arrives as absent (F15); a SEQUENCE with a DEFAULT of a constructed type is never encoded (F93). `C08_components` asks of each component that is sent only that it arrives as something, at any place of any message, and concludes the same of the SEQUENCE (without extension additions)."
  },
  {
   "property": "C09",
   "status": "partial",
   "theorems": [
    "Verif.Props.C09_additions_alone",
    "Verif.Props.C09_sequence_extensions_partial"
   ],
   "note": "The components that are sent must themselves be carried faithfully; open types of exactly 16384 octets excluded (F5). `C09_additions_alone` asks of each addition and group that is sent only that it arrives as a message of its own."
  },
  {
   "property": "C10",
   "status": "partial",
   "theorems": [
    "Verif.Props.C10_message",
    "Verif.Props.C10_alone",
    "Verif.Props.C10_accepted_partial",
    "Verif.Props.C10_canonical_partial"
   ],
   "note": "All schemas at any depth; the value must avoid the defects listed in section 4 of DESIGN.md (predicate safe), and for a message of its own not be a CHOICE of an empty BIT STRING (F87). `C10_message`, `C10_alone`: together with C06_elements, C07_alternative, C08_components, C07_addition_alone and C09_additions_alone also for values whose parts are not safe but known to arrive as something."
  },
  {
   "property": "C11",
   "status": "partial",
   "theorems": [
    "Verif.Props.C11_trailing",
    "Verif.Props.C11_encodings_partial"
   ],
   "note": "Trailing data: for every schema, every input.  Exact consumption: for values satisfying safe."
  },
  {
   "property": "C12",
   "status": "partial",
   "theorems": [
    "Verif.Props.C12_recoverable_partial",
    "Verif.Props.C12_injective_partial",
    "Verif.Props.C12_prefix_free_partial",
    "Verif.Props.C12_normal_form",
    "Verif.Props.C12_exactly_partial",
    "Verif.Props.C12_legible"
   ],
   "note": "Up to normalisation of absent components, for values satisfying legible: wider than safe, the defects of the decoder (F1, F2, F4, F7, F8) do not matter. What is excluded is where the encoder itself loses information or is not bounded by the format (F3, F5, F6, F9, F16). The converse holds for all objects of a type: what is received alike is encoded alike, so for legible values exactly the values received alike share an encoding."
  },
  {
   "property": "C13",
   "status": "proved",
   "theorems": [
    "Verif.Props.C13_output_shape",
    "Verif.Props.C13_layout_unique",
    "Verif.Props.C13_error"
   ],
   "note": "Every schema and value that encode accepts."
  },
  {
   "property": "C14",
   "status": "proved",
   "theorems": [
    "Verif.Props.C14_bit_pointer",
    "Verif.Props.C14_monotone",
    "Verif.Props.C14_decoder_moves_forward"
   ],
   "note": "Every history of reads; the whole decoder never moves backwards."
  },
  {
   "property": "C15",
   "status": "partial",
   "theorems": [
    "Verif.Props.C15_exact",
    "Verif.Props.C15_conforms_partial",
    "Verif.Props.C15_conforms_tight_partial",
    "Verif.Props.C15_conforms_inside_partial"
   ],
   "note": "Every schema and every input; constraints hold except list counts with non exact length fields (F21). C15_exact: for SEQUENCE (SIZE(l..u)) OF BOOLEAN with l < u and at most 65536 sizes, every received list is within the bounds exactly if the number of sizes is 2^k up to 128, 256 or 65536."
  },
  {
   "property": "C16",
   "status": "proved",
   "theorems": [
    "Verif.Props.C16_integer",
    "Verif.Props.C16_integer_extensible",
    "Verif.Props.C16_integer_range",
    "Verif.Props.C16_bitstring",
    "Verif.Props.C16_octetstring"
   ],
   "note": "Every constraint."
  },
  {
   "property": "C17",
   "status": "proved",
   "theorems": [
    "Verif.Props.C17_field_list",
    "Verif.Props.C17_integer",
    "Verif.Props.C17_unique"
   ],
   "note": "Every range and value; the format is unique."
  },
  {
   "property": "C18",
   "status": "partial",
   "theorems": [
    "Verif.Props.C18_unconstrained_partial",
    "Verif.Props.C18_exact"
   ],
   "note": "Up to 255 octets (F6). C18_exact: the format holds exactly for the values that 255 octets of two's complement can hold."
  },
  {
   "property": "C19",
   "status": "partial",
   "theorems": [
    "Verif.Props.C19_short",
    "Verif.Props.C19_long",
    "Verif.Props.C19_refused_partial",
    "Verif.Props.C19_read_back",
    "Verif.Props.C19_exact"
   ],
   "note": "Every length except 16384 (F5). C19_exact: exactly the lengths below 16384 have the format, exactly those above are refused."
  },
  {
   "property": "C20",
   "status": "proved",
   "theorems": [
    "Verif.Props.C20_fields",
    "Verif.Props.C20_by_position",
    "Verif.Props.C20_first_bits"
   ],
   "note": "Presence bits and component fields of the root, for every schema and value that encode accepts."
  },
  {
   "property": "C21",
   "status": "partial",
   "theorems": [
    "Verif.Props.C21_exact",
    "Verif.Props.C21_sent_partial",
    "Verif.Props.C21_restored_partial"
   ],
   "note": "Root components whose DEFAULT is not a BIT STRING differing in leading zeros only. C21_exact: a root component that is set is left out exactly if it is the DEFAULT, or a BIT STRING that is the same number. The full claim is false: Findings.C21_bitstring_default, Findings.C21_addition_default."
  },
  {
   "property": "C22",
   "status": "partial",
   "theorems": [
    "Verif.Props.C22_exact",
    "Verif.Props.C22_too_few",
    "Verif.Props.C22_too_many_partial",
    "Verif.Props.C22_outside_partial",
    "Verif.Props.C22_inside",
    "Verif.Props.C22_inside_open"
   ],
   "note": "All sizes except SIZE(0..0), for which the full claim is false: Findings.C22_size_zero. C22_exact: a list of encodable elements is refused exactly if it is too short, or too long for an upper end that is not 0."
  },
  {
   "property": "C23",
   "status": "partial",
   "theorems": [
    "Verif.Props.C23_missing_partial",
    "Verif.Props.C23_nested_partial",
    "Verif.Props.C23_simple",
    "Verif.Props.C23_exact"
   ],
   "note": "Every mandatory component that needs a value, at any depth. A mandatory SEQUENCE (OF) that may be empty is encoded as empty: Findings.C23_untouched_list. C23_exact: removing a mandatory root component from a SEQUENCE that can be encoded makes encode raise exactly if an object of its type that was just created cannot be encoded."
  },
  {
   "property": "C24",
   "status": "partial",
   "theorems": [
    "Verif.Props.C24_gap_partial",
    "Verif.Props.C24_error_partial",
    "Verif.Props.C24_groups_partial",
    "Verif.Props.C24_exact",
    "Verif.Props.C24_groups_exact"
   ],
   "note": "Gaps with no OPTIONAL addition in between, and consecutive groups. C24_exact, C24_groups_exact: if the root, every addition and every group by itself can be encoded, the exception is raised exactly when an addition is given right behind one that is neither given nor OPTIONAL, or a group right behind one of which nothing is given and nothing is OPTIONAL. The full claim is false: Findings.C24_hidden_gap, Findings.C24_group_after_gap."
  },
  {
   "property": "C25",
   "status": "partial",
   "theorems": [
    "Verif.Props.C25_unused_partial",
    "Verif.Props.C25_one_bit_partial",
    "Verif.Props.C25_exact"
   ],
   "note": "Extensions without DEFAULT components. C25_exact: the octets are those of the root-only schema exactly if no extension is given. The full claim is false: Findings.C25_default_addition."
  },
  {
   "property": "C26",
   "status": "partial",
   "theorems": [
    "Verif.Props.C26_older_receiver_partial",
    "Verif.Props.C26_misread",
    "Verif.Props.C26_exact"
   ],
   "note": "Whole messages whose first extension is given, or that give none, or receivers that know none. C26_exact: receivers that know some extensions but not all understand exactly these messages (groups with a mandatory component each). The full claim is false: Findings.C26_first_absent, Findings.C26_nested."
  },
  {
   "property": "C27",
   "status": "partial",
   "theorems": [
    "Verif.Props.C27_overrun_partial",
    "Verif.Props.C27_narrow_partial",
    "Verif.Props.C27_closing_partial",
    "Verif.Props.C27_read_behind_end_partial",
    "Verif.Props.C27_empty_partial"
   ],
   "note": "C27_closing_partial: the full claim for all types whose last field lies inside one octet (Spec.closing: a flag, a small number, an octet, or a constructed type that ends so), for any message; C27_narrow_partial: with ValueError, if all fields do. C27_overrun_partial: for all other types the truncation is noticed or the reader ends behind its input; reads that begin behind the end raise. The general claim is false: Findings.C27_truncated (F10)."
  },
  {
   "property": "C28",
   "status": "partial",
   "theorems": [
    "Verif.Props.C28_total",
    "Verif.Props.C28_keys",
    "Verif.Props.C28_sequence_partial",
    "Verif.Props.C28_sequence_of_partial",
    "Verif.Props.C28_choice_partial",
    "Verif.Props.C28_sequence_of_exact",
    "Verif.Props.C28_choice_exact"
   ],
   "note": "Every value of its type has a dictionary (C28_total). Entries, order and contents for SEQUENCE, SEQUENCE OF and CHOICE when whatever is left out is traceless (no absent CHOICE, no absent SEQUENCE with a DEFAULT inside) and elements/alternatives hold something; the excluded cases violate the claim (C28_sequence_of_exact, C28_choice_exact: exactly so for elements and alternatives): Findings.C28_absent_choice, C28_absent_sequence, C28_empty_list, C28_empty_elements, C28_choice_empty_list."
  },
  {
   "property": "C29",
   "status": "partial",
   "theorems": [
    "Verif.Props.C29_integer",
    "Verif.Props.C29_boolean",
    "Verif.Props.C29_enumerated",
    "Verif.Props.C29_octet_string",
    "Verif.Props.C29_octet_string_digits",
    "Verif.Props.C29_bit_string_partial",
    "Verif.Props.C29_whole_partial",
    "Verif.Props.C29_bit_string_exact"
   ],
   "note": "All leaf types; BIT STRINGs only of equal length, since the length is not shown: Findings.C29_bit_string_length. ENUMERATED items need distinct names. C29_whole_partial: whole values of any depth with the same dictionary are the same, up to DEFAULTs that are written out or not, if nothing in them is empty or left out with a trace (Spec.evident; otherwise Findings.C28_*). C29_bit_string_exact: BIT STRINGs look the same exactly if they are the same number."
  },
  {
   "property": "C30",
   "status": "partial",
   "theorems": [
    "Verif.Props.C30_wire_partial"
   ],
   "note": "For safe and returnable (F87) values whose omissible components count as values or are blank, and whose chosen alternatives are still values on arrival; excluded cases violate the claim: Findings.C30_choice_default, C30_optional_list_dropped."
  },
  {
   "property": "C31",
   "status": "proved",
   "theorems": [
    "Verif.Props.C31_perm"
   ],
   "note": "Every list of assignments whose component types have distinct names; with equal names one is lost: Findings.C31_same_name."
  },
  {
   "property": "C32",
   "status": "partial",
   "theorems": [
    "Verif.Props.C32_references",
    "Verif.Props.C32_order",
    "Verif.Props.C32_quiet_partial",
    "Verif.Props.C32_acyclic_partial"
   ],
   "note": "No warning implies the order, for every graph; no warning if chains of references have at most 99 types (any acyclic graph of fewer than 100 types). A chain of exactly 100 is put in order and still reported: Findings.C32_warning. References through an alias are not followed: Findings.C32_alias_component."
  },
  {
   "property": "C33",
   "status": "proved",
   "theorems": [
    "Verif.Props.C33_after",
    "Verif.Props.C33_order"
   ],
   "note": "Every list of assignments whose component types have distinct names. Aliases of aliases are not covered by the claim: Findings.C33_alias_of_alias."
  },
  {
   "property": "C34",
   "status": "partial",
   "theorems": [
    "Verif.Props.C34_exact",
    "Verif.Props.C34_lines",
    "Verif.Props.C34_determined",
    "Verif.Props.C34_count",
    "Verif.Props.C34_clean",
    "Verif.Props.C34_idempotent",
    "Verif.Props.C34_kept_partial"
   ],
   "note": "Lines, line count, no -- left, idempotence: every text. Other line ends than LF do not survive: Findings.C34_line_ends. C34_exact: a text is left as it is exactly if it consists of lines without -- that end with LF."
  },
  {
   "property": "C35",
   "status": "proved",
   "theorems": [
    "Verif.Props.C35_numbered",
    "Verif.Props.C35_names",
    "Verif.Props.C35_carried"
   ],
   "note": "Every list of items.  Names for plain identifiers; with numbers given in the schema the name of the item is spoilt and the module is not valid Python: Findings.C35_given_numbers.  The link to encode/decode inherits the limits of C02."
  },
  {
   "property": "C36",
   "status": "partial",
   "theorems": [
    "Verif.Props.C36_parts",
    "Verif.Props.C36_perm",
    "Verif.Props.C36_order",
    "Verif.Props.C36_unmixed_partial",
    "Verif.Props.C36_exact"
   ],
   "note": "Every well-bracketed list: partition, nothing lost or duplicated, order inside each part. The order of the whole only if no single addition follows a group: Findings.C36_mixed. C36_exact: for distinct components, exactly then."
  },
  {
   "property": "C37",
   "status": "proved",
   "theorems": [
    "Verif.Props.C37_add",
    "Verif.Props.C37_component_type",
    "Verif.Props.C37_grouping"
   ],
   "note": "All component lists."
  },
  {
   "property": "C38",
   "status": "partial",
   "theorems": [
    "Verif.Props.C38_endpoints_cover_partial",
    "Verif.Props.C38_exact",
    "Verif.Props.C38_encodable_partial",
    "Verif.Props.C38_single_values_cover"
   ],
   "note": "Constraints without a marker that accept everything because of the markers of members are excluded (F25). C38_exact: with at least one endpoint, the endpoints cover what is accepted exactly if no marker is in effect."
  },
  {
   "property": "C39",
   "status": "proved",
   "theorems": [
    "Verif.Props.C39_position",
    "Verif.Props.C39_content",
    "Verif.Props.C39_encoder_partial"
   ],
   "note": "Every inner type and input."
  },
  {
   "property": "C40",
   "status": "partial",
   "theorems": [
    "Verif.Props.C40_any_partial",
    "Verif.Props.C40_repeat_partial",
    "Verif.Props.C40_history_partial",
    "Verif.Props.C40_value_partial"
   ],
   "note": "Any number of calls, also between assignments to components outside groups. Values where a group that is sent has a mandatory SEQUENCE that is unset or does not count as a value are excluded: Findings.C40_second_call. C40_any_partial: for types without OPTIONAL components or extensions that are SEQUENCEs without mandatory components (or with a DEFAULT), objects in any state."
  },
  {
   "property": "C41",
   "status": "partial",
   "theorems": [
    "Verif.Props.C41_reencode_partial",
    "Verif.Props.C41_canonical_partial",
    "Verif.Props.C41_stable_partial",
    "Verif.Props.C41_only_partial",
    "Verif.Props.C41_forwarded_partial"
   ],
   "note": "For every safe value of the type: re-encoding what was decoded gives the same octets if and only if what was decoded would arrive unchanged when sent on (F23 otherwise), provided encode takes it (F79); canonical values and all that arrive unchanged are covered unconditionally."
  },
  {
   "property": "C42",
   "status": "partial",
   "theorems": [
    "Verif.Props.C42_newer_receiver_partial",
    "Verif.Props.C42_misread",
    "Verif.Props.C42_exact"
   ],
   "note": "Messages without extensions. C42_exact: exactly these are understood by a receiver that knows further extensions (groups with a mandatory component each); C42_misread: from all others it never returns the sender's values. Witness: Findings.C42_newer_receiver."
  },
  {
   "property": "C43",
   "status": "proved",
   "theorems": [
    "Verif.Props.C43_enumerated",
    "Verif.Props.C43_choice"
   ],
   "note": "Equality of encode, also when it raises."
  },
  {
   "property": "C44",
   "status": "proved",
   "theorems": [
    "Verif.Props.C44_choice",
    "Verif.Props.C44_enumerated"
   ],
   "note": "For any trailing bytes."
  },
  {
   "property": "C45",
   "status": "partial",
   "theorems": [
    "Verif.Props.C45_encode_partial",
    "Verif.Props.C45_inside_partial",
    "Verif.Props.C45_integer_partial",
    "Verif.Props.C45_integer_exact",
    "Verif.Props.C45_unconstrained_exact",
    "Verif.Props.C45_bit_string_exact",
    "Verif.Props.C45_octet_string_exact"
   ],
   "note": "For all types and nestings against an independent reference of ALIGNED PER (SpecX691.lean). X691.regular leaves out lengths of 16K and more and the deviations proved in Findings.C45_* (F3, F6, F9, F13-F16, F18), and OCTET STRING empty with a SIZE range. For INTEGER and BIT STRING it is proved exactly which values get the bytes of the standard; OCTET STRINGs below 16K all do as messages of their own. The reference is tested against the examples A.1 and A.4 of the standard (Props/Annex.lean)."
  },
  {
   "property": "C46",
   "status": "partial",
   "theorems": [
    "Verif.Props.C46_decode_partial",
    "Verif.Props.C46_unique_partial",
    "Verif.Props.C46_misread",
    "Verif.Props.C46_unconstrained_exact",
    "Verif.Props.C46_octet_string_exact",
    "Verif.Props.C46_bit_string_exact",
    "Verif.Props.C46_empty_bit_string"
   ],
   "note": "Needs the value to be regular (C45), safe (C01-C09) and returnable (F87). C46_misread and C46_unconstrained_exact: an unconstrained INTEGER of more than 128 octets is never read back from the bytes of the standard (F6), one of up to 127 always; C46_octet_string_exact, C46_bit_string_exact: strings that are encoded are read back from the bytes of the standard exactly if they survive alone (C04, C05); C46_empty_bit_string: an empty BIT STRING is read from no message."
  },
  {
   "property": "C47",
   "status": "partial",
   "theorems": [
    "Verif.Props.C47_determined",
    "Verif.Props.C47_range_partial",
    "Verif.Props.C47_size_partial",
    "Verif.Props.C47_exact"
   ],
   "note": "Unions of values and ranges that start with the least and end with the greatest end, without '<', intersections, additional sets and hyphens in names. Exclusions are necessary: Findings.C47_*. C47_exact: such unions get their bounds exactly if they start with the least and end with the greatest end."
  },
  {
   "property": "C48",
   "status": "partial",
   "theorems": [
    "Verif.Props.C48_compiled_partial",
    "Verif.Props.C48_all"
   ],
   "note": "Assignments in the order of ModuleBody (an order where names are assigned before they are used). Types and DEFAULTs excluded by RegularAssign are listed in Spec.Regular/LiteralFor/DefaultFor; witnesses Findings.C48_*, C47_*. Names that are reserved in Python or used by the generated module are excluded: Findings.C49_*."
  },
  {
   "property": "C49",
   "status": "proved",
   "theorems": [
    "Verif.Props.C49_distinct",
    "Verif.Props.C49_kinds",
    "Verif.Props.C49_hyphen"
   ],
   "note": "Names are words of letters, digits and hyphens (X.680 12.2, 12.3). Not claimed: that they do not clash with reserved words of Python and names of the library; they may (Findings.C49_keyword, C49_library)."
  },
  {
   "property": "C50",
   "status": "partial",
   "theorems": [
    "Verif.Props.C50_compiled_partial",
    "Verif.Props.C50_determined_partial",
    "Verif.Props.C50_order_partial",
    "Verif.Props.C50_exchange_partial"
   ],
   "note": "Proved for schemas that are Regular (as in C48), Sortable and have fewer than 100 types with components: C50_compiled_partial (compiled to what the equations of the schema say), C50_determined_partial (they have one solution), C50_order_partial (same module names for every permutation), C50_exchange_partial (messages between two such modules). Missing because false of the code: F31, F56, F57, F58 (theorems of Verif.Props.Findings: C50_alias_of_alias, C50_alias_component, C50_builtin_name, C50_value_before, C50_constant_bound)."
  },
  {
   "property": "C51",
   "status": "partial",
   "theorems": [
    "Verif.Props.C51_process_partial",
    "Verif.Props.C51_sound_partial",
    "Verif.Props.C51_unsorted_partial",
    "Verif.Props.C51_default",
    "Verif.Props.C51_enumerated_partial"
   ],
   "note": "Proved for every schema without restriction: C51_sound_partial, C51_unsorted_partial, C51_default, C51_process_partial (from the text, whatever was compiled before in the process), C51_enumerated_partial (sizes of ENUMERATED within the limits of C02). Missing because false of the code: the order of the ends of SIZE of SEQUENCE OF is not checked, F59 (Verif.Props.Findings.C51_empty_size)."
  },
  {
   "property": "C52",
   "status": "partial",
   "theorems": [
    "Verif.Props.C52_parsed_partial",
    "Verif.Props.C52_unambiguous_partial",
    "Verif.Props.C52_constraint"
   ],
   "note": "Proved for every module of WritableAssign assignments in every layout, with pyparsing as modelled in Pyparsing. Missing because false of the code (refused or misread, theorems of Verif.Props.Findings): F60-F74, F76. Character strings, REAL and quoted strings with spaces are outside of the model."
  },
  {
   "property": "C53",
   "status": "partial",
   "theorems": [
    "Verif.Props.C53_text_partial",
    "Verif.Props.C53_layout_partial",
    "Verif.Props.C53_compiled_partial",
    "Verif.Props.C53_exchange_partial"
   ],
   "note": "C53_text_partial: compiling a text is compiling its assignments, for every layout and comments (also if it fails). C53_compiled_partial, C53_exchange_partial: under the hypotheses of C50. Missing: see C50 and C52; comments that are closed on their line, F75."
  },
  {
   "property": "C54",
   "status": "partial",
   "theorems": [
    "Verif.Props.C54_alone_partial",
    "Verif.Props.C54_first",
    "Verif.Props.C54_session_partial",
    "Verif.Props.C54_text_partial"
   ],
   "note": "C54_alone_partial, C54_text_partial: for any contents of the dictionaries. C54_session_partial: for any sequence of modules. C54_first: without hypotheses for the first module. Missing because false of the code: DEFAULTs that are the name of a value of a named type of an earlier module, F77; modules that lack a type, F78."
  },
  {
   "property": "C55",
   "status": "partial",
   "theorems": [
    "Verif.Props.C55_text",
    "Verif.Props.C55_one_meaning",
    "Verif.Props.C55_schema_partial",
    "Verif.Props.C55_exchange_partial"
   ],
   "note": "C55_text: for every text from which the compiler model makes classes (compileText), without the character U+2013 and without types that are called like something every module imports. C55_schema_partial, C55_exchange_partial: under the hypotheses of C53. Missing because false of the code: U+2013 in names, F81; names with hyphens in constraints and DEFAULTs, F82 (Python reads a subtraction); and what is missing in C53."
  },
  {
   "property": "C56",
   "status": "proved",
   "theorems": [
    "Verif.Props.C56_size",
    "Verif.Props.C56_elements"
   ],
   "note": "C56_size: for every type and every octet string; the numbers are Spec.cost. C56_elements: for lists of elements that take at least one bit. That the numbers have to count announced lengths is F83, F84."
  },
  {
   "property": "C57",
   "status": "partial",
   "theorems": [
    "Verif.Props.C57_interop_partial"
   ],
   "note": "C57_interop_partial: under the hypotheses of C53/C55 for the schema and of C45/C46 for the value. Missing because false of the code: what is missing there."
  },
  {
   "property": "C58",
   "status": "proved",
   "theorems": [
    "Verif.Props.C58_faults",
    "Verif.Props.C58_kinds"
   ],
   "note": "C58_faults: for every type and every octet string, against Spec.mayRaise and Spec.choosesNothing. C58_kinds: the list of all exceptions."
  },
  {
   "property": "C59",
   "status": "partial",
   "theorems": [
    "Verif.Props.C59_recursion_partial",
    "Verif.Props.C59_sorted_partial",
    "Verif.Props.C59_text_partial"
   ],
   "note": "C59_recursion_partial: assignments in the order of ModuleBody; C59_sorted_partial: in any order; C59_text_partial: from the text. Missing: cycles through an element type that is written in place inside another one, for which the claim is false: Findings.C59_forgotten, C59_borrowed. Components with a DEFAULT are not followed (their types have no components in the schemas the grammar reads)."
  },
  {
   "property": "C60",
   "status": "proved",
   "theorems": [
    "Verif.Props.C60_domain",
    "Verif.Props.C60_refusals",
    "Verif.Props.C60_six",
    "Verif.Props.C60_three"
   ],
   "note": "C60_domain: encode succeeds on exactly the values that Spec.encodable describes, for all types and values. C60_refusals: on values that satisfy the constraints of their simple components (Spec.fair, which also excludes extensible ranges without both ends, DEFAULT on constructed types and empty version brackets; the examples show AttributeError and TypeError outside it) the exception is one of Spec.refusal; C60_six and C60_three list them. The length of an open type is that of the actual encoding (Spec.short)."
  },
  {
   "property": "C61",
   "status": "proved",
   "theorems": [
    "Verif.Props.C61_extent",
    "Verif.Props.C61_inside",
    "Verif.Props.C61_largest",
    "Verif.Props.C61_conforms"
   ],
   "note": "C61_extent: a message has at most the octets for Spec.extent t v bits, for all types and all values that encode takes. C61_inside: the same behind any bits written before. C61_largest, C61_conforms: at most Spec.largest t bits, from the type alone. The bounds allow 7 bits of padding before an aligned field whatever its position; the examples show where they are reached."
  },
  {
   "property": "C62",
   "status": "proved",
   "theorems": [
    "Verif.Props.C62_receivers_agree",
    "Verif.Props.C62_never_misread",
    "Verif.Props.C62_unknown_refused",
    "Verif.Props.C62_senders_agree"
   ],
   "note": "For all pairs of schemas related by Spec.Later (any depth), all octets and values. Spec.defaultsKnown (DEFAULT values use known items and alternatives only) is needed on the sending side only."
  },
  {
   "property": "C63",
   "status": "proved",
   "theorems": [
    "Verif.Props.C63_encode",
    "Verif.Props.C63_decode",
    "Verif.Props.C63_renaming",
    "Verif.Props.C63_twice_encode",
    "Verif.Props.C63_twice_decode",
    "Verif.Props.C63_twice_choice"
   ],
   "note": "Full claim, against a second model of encoder and decoder that looks names up (Named). Twice-used names: SEQUENCE needs that a type without extension marker has no additions (what the templates write)."
  },
  {
   "property": "C64",
   "status": "partial",
   "theorems": [
    "Verif.Props.C64_written",
    "Verif.Props.C64_refused",
    "Verif.Props.C64_returned",
    "Verif.Props.C64_accepted",
    "Verif.Props.C64_name",
    "Verif.Props.C64_apart",
    "Verif.Props.C64_import_partial"
   ],
   "note": "Where the file is, what it holds and that nothing else changes: proved for all texts, folders and disks (POSIX paths, files of characters). Importing it: only for names that are Python names, hyphens are kept (F89), and as far as C55_text goes."
  },
  {
   "property": "C65",
   "status": "partial",
   "theorems": [
    "Verif.Props.C65_result",
    "Verif.Props.C65_same",
    "Verif.Props.C65_history",
    "Verif.Props.C65_usable",
    "Verif.Props.C65_kept_partial",
    "Verif.Props.C65_objects"
   ],
   "note": "The result: full claim, for all well-formed heaps, sharing, and histories of calls (C65_result, C65_same, C65_history, C65_usable; C65_objects: every type has objects). That objects are left as they were is false (F90: a CHOICE drops its value, unset components are made); C65_kept_partial: values, elements, components that were set and the objects of the classes are kept."
  },
  {
   "property": "C66",
   "status": "partial",
   "theorems": [
    "Verif.Props.C66_look_partial",
    "Verif.Props.C66_dict_partial",
    "Verif.Props.C66_value_partial",
    "Verif.Props.C66_agrees_partial"
   ],
   "note": "False in general (F91): reading the components of an unset OPTIONAL SEQUENCE without mandatory components (or with a DEFAULT), directly or by to_dict, makes it a value; it is then sent, or encode raises. Proved for all histories on objects in any state of the types in which no OPTIONAL component or extension is such a SEQUENCE (C66_look_partial), and for dictionaries if no alternative of a CHOICE is (C66_dict_partial; all other types included). C66_agrees_partial ties the object model to toDict."
  },
  {
   "property": "C67",
   "status": "partial",
   "theorems": [
    "Verif.Props.C67_shared_partial",
    "Verif.Props.C67_dict_partial",
    "Verif.Props.C67_apart_partial",
    "Verif.Props.C67_value_partial",
    "Verif.Props.C67_alike_partial",
    "Verif.Props.C67_kept"
   ],
   "note": "False in general (F92): an empty object used as mandatory and OPTIONAL component is sent as the latter once it was encoded as the former. Proved for all stores, sharing and histories of encode, to_dict, reading and assignments (C67_shared_partial), where what is encoded is of a type in which no OPTIONAL component or extension is a SEQUENCE without mandatory components or with a DEFAULT, with DEFAULT on simple types only; C67_dict_partial: the same for the dictionaries where no alternative of a CHOICE is such a SEQUENCE; C67_apart_partial, C67_alike_partial, C67_value_partial: only the value counts; C67_kept: for all types what was set stays."
  },
  {
   "property": "C68",
   "status": "partial",
   "theorems": [
    "Verif.Props.C68_set_partial",
    "Verif.Props.C68_append_partial",
    "Verif.Props.C68_choose_partial",
    "Verif.Props.C68_forward_partial",
    "Verif.Props.C68_relay_partial",
    "Verif.Props.C68_shown_partial",
    "Verif.Props.C68_others_partial"
   ],
   "note": "The full claim is false (C68_twice, F92): a received SEQUENCE in which nothing is set, used twice in one object, is sent once too often. Proved for all programs and messages: what is sent (C68_set_partial, C68_append_partial, C68_choose_partial, C68_forward_partial), shown (C68_shown_partial) and sent and shown of other objects (C68_others_partial), and received by another program (C68_relay_partial), with the restrictions on types of C67 and on values of C40. What the objects hold, without restriction, is C69."
  },
  {
   "property": "C69",
   "status": "proved",
   "theorems": [
    "Verif.Props.C69_received",
    "Verif.Props.C69_raised",
    "Verif.Props.C69_apart",
    "Verif.Props.C69_others",
    "Verif.Props.C69_component",
    "Verif.Props.C69_element",
    "Verif.Props.C69_alternative",
    "Verif.Props.C69_assigned",
    "Verif.Props.C69_typed",
    "Verif.Props.C69_depends",
    "Verif.Props.C69_elsewhere"
   ],
   "note": "For all types, messages, and all states and sharing of the program's objects: the received object holds the decoded value, is made of new objects only and leaves all others as they are (C69_received, C69_apart, C69_others, C69_raised); its parts hold the parts of the value (C69_component, C69_element, C69_alternative); assigning replaces exactly that part (C69_assigned), keeps all types (C69_typed) and has no effect on objects that do not contain the one assigned to (C69_depends, C69_elsewhere)."
  },
  {
   "property": "C70",
   "status": "proved",
   "theorems": [
    "Verif.Props.C70_position",
    "Verif.Props.C70_message"
   ],
   "note": "For all types, all readers and all positions: C70_position; C70_message for what remains at the beginning of an octet and the same octets as a message. That the place within the octet counts is shown by an example."
  }
 ]
}
