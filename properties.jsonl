{"id": "C01", "title": "INTEGER round-trip", "statement": "Encoding an INTEGER value of any schema (unconstrained, lb..MAX, lb..ub, extensible with value inside or outside the root) and decoding the bytes with the same schema returns exactly that value, wherever in a message the INTEGER sits.", "quantifier": "all integers, all constraints, all bit positions inside a surrounding message, all following data", "why_tests_cant": "the value, the bounds and the bit position are unbounded; width selection has many boundaries (255/256/257/65536/65537, octet-length boundaries of big integers)", "anchors": [{"file": "asn1PERser/codec/per/encoder.py", "symbol": "encode_integer"}, {"file": "asn1PERser/codec/per/encoder.py", "symbol": "create_field_list_for_constrained_whole_number"}, {"file": "asn1PERser/codec/per/encoder.py", "symbol": "create_field_list_for_unconstrained_whole_number"}, {"file": "asn1PERser/codec/per/decoder.py", "symbol": "decode_integer"}, {"file": "asn1PERser/codec/per/decoder.py", "symbol": "decode_constrained_whole_number_from_field_list"}, {"file": "asn1PERser/codec/per/decoder.py", "symbol": "decode_unconstrained_whole_number"}]}
{"id": "C02", "title": "ENUMERATED round-trip", "statement": "Every enumeration item of a schema whose items are numbered 0..n-1 (root first, then additions) decodes back to itself, including items in the extension with any index.", "quantifier": "all root sizes, all extension sizes, all items, all bit positions", "why_tests_cant": "the number of items is unbounded and the index switches format at 63", "anchors": [{"file": "asn1PERser/codec/per/encoder.py", "symbol": "encode_enumerated"}, {"file": "asn1PERser/codec/per/encoder.py", "symbol": "encode_normally_small_non_negative_whole_number"}, {"file": "asn1PERser/codec/per/decoder.py", "symbol": "decode_enumerated"}, {"file": "asn1PERser/codec/per/decoder.py", "symbol": "decode_normally_small_non_negative_whole_number"}]}
{"id": "C03", "title": "BOOLEAN round-trip", "statement": "TRUE and FALSE each take exactly one bit, with no alignment, and decode back at any bit position.", "quantifier": "both values, all bit positions and surroundings", "why_tests_cant": "the surrounding message is arbitrary", "anchors": [{"file": "asn1PERser/codec/per/encoder.py", "symbol": "encode_boolean"}, {"file": "asn1PERser/codec/per/decoder.py", "symbol": "decode_boolean"}]}
{"id": "C04", "title": "BIT STRING round-trip", "statement": "Every bit string allowed by the schema decodes back bit-for-bit, with the same length (leading zero bits are never lost).", "quantifier": "all bit strings of all lengths, all SIZE constraints, all bit positions", "why_tests_cant": "unbounded strings; lengths at 0, 16/17, 65535/65536, multiples of 8 and the extension boundary behave differently", "anchors": [{"file": "asn1PERser/codec/per/encoder.py", "symbol": "encode_bitstring"}, {"file": "asn1PERser/codec/per/decoder.py", "symbol": "decode_bitstring"}]}
{"id": "C05", "title": "OCTET STRING round-trip", "statement": "Every octet string allowed by the schema decodes back octet-for-octet, whatever its contents, including empty strings and strings that start with zero octets.", "quantifier": "all octet strings, all SIZE constraints, all bit positions", "why_tests_cant": "contents are arbitrary; the decoder goes through a big integer and a hex string so leading zeros matter", "anchors": [{"file": "asn1PERser/codec/per/encoder.py", "symbol": "encode_octetstring"}, {"file": "asn1PERser/codec/per/decoder.py", "symbol": "decode_octetstring"}]}
{"id": "C06", "title": "SEQUENCE OF round-trip", "statement": "A SEQUENCE OF whose number of elements is allowed by its SIZE decodes back to the same elements in the same order.", "quantifier": "all element types, all lists, all SIZE constraints", "why_tests_cant": "length and element type are unbounded", "anchors": [{"file": "asn1PERser/codec/per/encoder.py", "symbol": "encode_sequence_of"}, {"file": "asn1PERser/codec/per/decoder.py", "symbol": "decode_sequence_of"}]}
{"id": "C07", "title": "CHOICE round-trip", "statement": "Decoding an encoded CHOICE yields the same alternative (root, extension addition or addition group) and the same value.", "quantifier": "all lists of alternatives, all selected alternatives, all values", "why_tests_cant": "number of alternatives unbounded; index format changes with the count and with index 63", "anchors": [{"file": "asn1PERser/codec/per/encoder.py", "symbol": "encode_choice"}, {"file": "asn1PERser/codec/per/decoder.py", "symbol": "decode_choice"}]}
{"id": "C08", "title": "SEQUENCE root round-trip", "statement": "Decoding an encoded SEQUENCE yields the same set of present components with the same values; absent OPTIONAL components stay absent; components equal to their DEFAULT read back as the DEFAULT.", "quantifier": "all component lists, all subsets of OPTIONAL/DEFAULT components present, all values", "why_tests_cant": "2^n presence patterns for unbounded n", "anchors": [{"file": "asn1PERser/codec/per/encoder.py", "symbol": "encode_sequence"}, {"file": "asn1PERser/codec/per/decoder.py", "symbol": "decode_sequence"}]}
{"id": "C09", "title": "SEQUENCE extension round-trip", "statement": "Extension additions and extension addition groups that are set decode back with the same values; those not set stay absent; root components are unaffected.", "quantifier": "all lists of additions and groups (up to 64), all presence patterns accepted by encode", "why_tests_cant": "combinatorial presence patterns over unbounded schemas", "anchors": [{"file": "asn1PERser/codec/per/encoder.py", "symbol": "encode_sequence"}, {"file": "asn1PERser/codec/per/encoder.py", "symbol": "encode_open_type_field"}, {"file": "asn1PERser/codec/per/encoder.py", "symbol": "create_new_fake_empty_sequence"}, {"file": "asn1PERser/codec/per/decoder.py", "symbol": "decode_sequence"}, {"file": "asn1PERser/codec/per/decoder.py", "symbol": "decode_open_type_field"}, {"file": "asn1PERser/codec/per/decoder.py", "symbol": "create_new_fake_empty_sequence"}]}
{"id": "C10", "title": "Whole-schema round-trip", "statement": "For every schema built from the supported types nested to any depth and every value of it that encode accepts, decode(encode(v)) gives back v (DEFAULTs read back as such).", "quantifier": "all type trees of any depth and width, all values", "why_tests_cant": "structural recursion: no finite test set covers all nestings", "anchors": [{"file": "asn1PERser/codec/per/encoder.py", "symbol": "encode"}, {"file": "asn1PERser/codec/per/decoder.py", "symbol": "decode"}]}
{"id": "C11", "title": "Trailing data is ignored / encodings are self-delimiting", "statement": "Appending any bytes after a valid encoding does not change what decode returns, and inside a message each component consumes exactly the bits its encoding produced.", "quantifier": "all schemas, values and trailing byte strings", "why_tests_cant": "arbitrary trailing data", "anchors": [{"file": "asn1PERser/codec/per/decoder.py", "symbol": "decode"}, {"file": "asn1PERser/codec/per/decoder.py", "symbol": "PerBytes"}]}
{"id": "C12", "title": "Encoding is injective", "statement": "Two values of one schema that encode to the same bytes are the same value (up to DEFAULT normalisation).", "quantifier": "all schemas, all pairs of values", "why_tests_cant": "pairs of unbounded values", "anchors": [{"file": "asn1PERser/codec/per/encoder.py", "symbol": "encode"}]}
{"id": "C13", "title": "Shape of the output", "statement": "encode returns a whole, non-zero number of octets: the concatenation of all fields, each octet-aligned field starting at a multiple of 8 bits after zero padding shorter than 8 bits, then fewer than 8 zero pad bits at the end (or one zero octet if there is no field at all).", "quantifier": "all field lists", "why_tests_cant": "unbounded field lists and bit counts; goes through a big integer and a hex string so leading zeros could be lost", "anchors": [{"file": "asn1PERser/codec/per/encoder.py", "symbol": "encode"}, {"file": "asn1PERser/codec/per/encoder.py", "symbol": "_produce_complete_encoding"}, {"file": "asn1PERser/codec/per/encoder.py", "symbol": "_bin_to_hex"}]}
{"id": "C14", "title": "Bit pointer behaves like one counter", "statement": "After any history of aligned and unaligned reads the decoder's octet/bit pointer equals the position obtained by adding the sizes and rounding up to 8 at each aligned read, its bit part is below 8, it never moves backwards, and each read returns exactly the bits between the old (rounded) and new position.", "quantifier": "all sequences of reads of any sizes on any input", "why_tests_cant": "all histories of reads", "anchors": [{"file": "asn1PERser/codec/per/decoder.py", "symbol": "Offset"}, {"file": "asn1PERser/codec/per/decoder.py", "symbol": "PerBytes"}]}
{"id": "C15", "title": "Decoded values respect the schema", "statement": "Whatever bytes are fed to decode, if it returns a value then that value has the shape of the schema and satisfies its non-extensible value and size constraints; otherwise it raises.", "quantifier": "all schemas, all byte strings", "why_tests_cant": "adversarial input of any length", "anchors": [{"file": "asn1PERser/codec/per/decoder.py", "symbol": "decode"}]}
{"id": "C16", "title": "Value construction enforces constraints", "statement": "Creating an INTEGER / BIT STRING / OCTET STRING with a non-extensible constraint succeeds exactly when the value (size) is within it; with an extension marker it always succeeds.", "quantifier": "all constraints, all values", "why_tests_cant": "unbounded domain", "anchors": [{"file": "asn1PERser/classes/types/constraint.py", "symbol": "ValueRange"}, {"file": "asn1PERser/classes/types/constraint.py", "symbol": "SingleValue"}, {"file": "asn1PERser/classes/types/constraint.py", "symbol": "ValueSize"}, {"file": "asn1PERser/classes/types/constraint.py", "symbol": "ConstraintOr"}, {"file": "asn1PERser/classes/types/constraint.py", "symbol": "ConstraintAnd"}]}
{"id": "C17", "title": "Constrained whole numbers have the X.691 11.5 format", "statement": "A value n of INTEGER(lb..ub) is written as n-lb in: no bits when the range is 1; the least number of bits able to hold range-1, unaligned, for a range up to 255; 8 aligned bits for 256; 16 aligned bits up to 65536; above that the least number of whole octets holding n-lb, aligned, preceded by a length.", "quantifier": "all lb <= n <= ub", "why_tests_cant": "boundaries and unbounded ranges; get_bit_field_size is a hand-written table", "anchors": [{"file": "asn1PERser/codec/per/encoder.py", "symbol": "encode_constrained_whole_number"}, {"file": "asn1PERser/codec/per/encoder.py", "symbol": "get_bit_field_size"}, {"file": "asn1PERser/codec/per/encoder.py", "symbol": "get_range_octet_len"}]}
{"id": "C18", "title": "Unconstrained integers are minimal two's complement", "statement": "An unconstrained INTEGER is written as an aligned length octet L and L octets that are the two's complement representation of the value, L being minimal.", "quantifier": "all integers", "why_tests_cant": "unbounded integers, sign boundaries at every octet length", "anchors": [{"file": "asn1PERser/codec/per/encoder.py", "symbol": "create_field_list_for_unconstrained_whole_number"}, {"file": "asn1PERser/codec/per/encoder.py", "symbol": "get_twos_complement_octet_len"}, {"file": "asn1PERser/codec/per/encoder.py", "symbol": "encode_twos_complement_binary_integer"}, {"file": "asn1PERser/codec/per/decoder.py", "symbol": "twos_comp"}]}
{"id": "C19", "title": "Length determinants", "statement": "A length n is written in 8 aligned bits 0nnnnnnn when n<=127, in 16 aligned bits 10nnnnnnnnnnnnnn when 128<=n<16384, anything larger is refused; the decoder reads back exactly n.", "quantifier": "all n", "why_tests_cant": "threshold at 127/128 and 16383/16384", "anchors": [{"file": "asn1PERser/codec/per/encoder.py", "symbol": "encode_length_determinant"}, {"file": "asn1PERser/codec/per/decoder.py", "symbol": "decode_length_determinant"}]}
{"id": "C20", "title": "Presence bitmap of a SEQUENCE", "statement": "A SEQUENCE root encoding starts with exactly one bit per OPTIONAL/DEFAULT component, in declaration order, which is 1 exactly when that component is encoded; the component encodings follow in declaration order.", "quantifier": "all component lists and presence patterns", "why_tests_cant": "2^n patterns", "anchors": [{"file": "asn1PERser/codec/per/encoder.py", "symbol": "encode_sequence"}]}
{"id": "C21", "title": "DEFAULT values are not sent and are restored", "statement": "A component whose value equals its DEFAULT contributes only a 0 bit, and reading it after decode gives the DEFAULT; a component whose value differs from its DEFAULT is sent and restored.", "quantifier": "all simple component types, all default and actual values", "why_tests_cant": "equality of values over unbounded domains", "anchors": [{"file": "asn1PERser/codec/per/encoder.py", "symbol": "encode_sequence"}, {"file": "asn1PERser/codec/per/decoder.py", "symbol": "decode_sequence"}]}
{"id": "C22", "title": "SEQUENCE OF size is enforced when encoding", "statement": "encode raises for a non-extensible SEQUENCE OF (SIZE(lb..ub)) when the number of elements is outside lb..ub, and never raises a size error when it is inside.", "quantifier": "all bounds, all element counts", "why_tests_cant": "unbounded", "anchors": [{"file": "asn1PERser/codec/per/encoder.py", "symbol": "encode_sequence_of"}]}
{"id": "C23", "title": "Missing mandatory components are reported", "statement": "encode raises if a mandatory root component of a SEQUENCE has not been set.", "quantifier": "all schemas and partially filled values", "why_tests_cant": "all subsets of components of all schemas", "anchors": [{"file": "asn1PERser/codec/per/encoder.py", "symbol": "encode_sequence"}]}
{"id": "C24", "title": "Gaps in extension additions are reported", "statement": "encode raises MandatoryExtensionFieldNotPresent when an extension addition is set while an earlier mandatory addition is not.", "quantifier": "all lists of additions, all presence patterns", "why_tests_cant": "2^n patterns", "anchors": [{"file": "asn1PERser/codec/per/encoder.py", "symbol": "encode_sequence"}]}
{"id": "C25", "title": "Unused extensions cost one bit", "statement": "A SEQUENCE value that sets no extension addition or group encodes to the same bytes under the extended schema and under the schema that has only the root and the extension marker.", "quantifier": "all schemas and root values", "why_tests_cant": "all schemas", "anchors": [{"file": "asn1PERser/codec/per/encoder.py", "symbol": "encode_sequence"}]}
{"id": "C26", "title": "Older receivers can read newer messages", "statement": "A receiver whose schema lacks the last additions/groups of an extensible SEQUENCE decodes a message of the newer schema to the values of the components it knows.", "quantifier": "all schema pairs (old, new), all values", "why_tests_cant": "pairs of schemas", "anchors": [{"file": "asn1PERser/codec/per/decoder.py", "symbol": "decode_sequence"}]}
{"id": "C27", "title": "Truncated input is rejected", "statement": "decode of a strict prefix of an encoding that lacks needed bits raises instead of returning a value.", "quantifier": "all schemas, values, and truncation points", "why_tests_cant": "every cut point of every encoding", "anchors": [{"file": "asn1PERser/codec/per/decoder.py", "symbol": "PerBytes"}, {"file": "asn1PERser/codec/per/decoder.py", "symbol": "decode"}]}
{"id": "C28", "title": "to_dict lists exactly the present components", "statement": "to_dict of a SEQUENCE has exactly one entry per component that carries a value (or default), keyed by component name, in declaration order; of a CHOICE exactly the chosen alternative; of a SEQUENCE OF the list of element dicts in order.", "quantifier": "all schemas and values", "why_tests_cant": "all nestings and presence patterns", "anchors": [{"file": "asn1PERser/classes/data/builtin/SequenceType.py", "symbol": "SequenceType.to_dict"}, {"file": "asn1PERser/classes/data/builtin/ChoiceType.py", "symbol": "ChoiceType.to_dict"}, {"file": "asn1PERser/classes/data/builtin/SequenceOfType.py", "symbol": "SequenceOfType.to_dict"}]}
{"id": "C29", "title": "to_dict leaf values are lossless", "statement": "Different INTEGER, BOOLEAN, OCTET STRING, BIT STRING or ENUMERATED values have different to_dict representations, and an OCTET STRING of n octets is 2n lowercase hex digits.", "quantifier": "all leaf values", "why_tests_cant": "unbounded domains", "anchors": [{"file": "asn1PERser/classes/data/builtin/OctetStringType.py", "symbol": "OctetStringType.to_dict"}, {"file": "asn1PERser/classes/data/builtin/BitStringType.py", "symbol": "BitStringType.to_dict"}]}
{"id": "C30", "title": "to_dict survives the wire", "statement": "to_dict of decode(encode(v)) equals to_dict of v.", "quantifier": "all schemas and values", "why_tests_cant": "all nestings", "anchors": [{"file": "asn1PERser/classes/data/builtin/SequenceType.py", "symbol": "SequenceType.to_dict"}, {"file": "asn1PERser/codec/per/decoder.py", "symbol": "decode"}]}
{"id": "C31", "title": "Schema assignments are neither lost nor duplicated", "statement": "The ordered module body emitted for a schema with distinct type names contains every assignment of the schema exactly once.", "quantifier": "all assignment lists, including cyclic references", "why_tests_cant": "all reference graphs", "anchors": [{"file": "asn1PERser/classes/module.py", "symbol": "ModuleDefinition.sort_assigment_list"}, {"file": "asn1PERser/classes/module.py", "symbol": "ModuleDefinition.sort_components"}, {"file": "asn1PERser/classes/module.py", "symbol": "ModuleDefinition.additional_sort"}]}
{"id": "C32", "title": "Referenced component types come first", "statement": "If no 'Could not sort' warning is logged, every SEQUENCE/CHOICE/SEQUENCE OF type in the output comes after the component types it refers to; and a warning is logged only if the order could not be established.", "quantifier": "all reference graphs", "why_tests_cant": "all graphs of any size; the algorithm is iterative with a cut-off at 100 passes", "anchors": [{"file": "asn1PERser/classes/module.py", "symbol": "ModuleDefinition.sort_components"}]}
{"id": "C33", "title": "Aliases follow the type they name", "statement": "After sorting, an alias Foo ::= Bar of a component type Bar comes after Bar, and the relative order of the other component types is unchanged.", "quantifier": "all assignment lists", "why_tests_cant": "all lists", "anchors": [{"file": "asn1PERser/classes/module.py", "symbol": "ModuleDefinition.additional_sort"}]}
{"id": "C34", "title": "Comment removal", "statement": "Removing comments drops everything from the first -- of each line to its end, keeps every other character and the number of lines, leaves no -- in the text, and is idempotent.", "quantifier": "all texts", "why_tests_cant": "all strings", "anchors": [{"file": "asn1PERser/classes/module.py", "symbol": "remove_comments"}, {"file": "asn1PERser/classes/module.py", "symbol": "_remove_line_comments"}]}
{"id": "C35", "title": "Generated enumerations are numbered 0..n-1", "statement": "For every ENUMERATED in a schema the generated class numbers its items consecutively from 0 in declaration order, root items first, which is the numbering encode/decode rely on.", "quantifier": "all enumeration item lists with or without extension marker", "why_tests_cant": "unbounded item lists", "anchors": [{"file": "asn1PERser/classes/types/builtin/EnumeratedType.py", "symbol": "EnumeratedType.fill_template"}]}
{"id": "C36", "title": "Generated SEQUENCE/CHOICE classes partition the components", "statement": "Components before the extension marker become root components, later ones outside [[ ]] extension additions, those inside [[ ]] one group per bracket pair; nothing is lost, duplicated or reordered.", "quantifier": "all well-bracketed component lists", "why_tests_cant": "unbounded lists", "anchors": [{"file": "asn1PERser/classes/types/builtin/SequenceType.py", "symbol": "SequenceType.fill_template"}, {"file": "asn1PERser/classes/types/builtin/ChoiceType.py", "symbol": "ChoiceType.fill_template"}]}
{"id": "C37", "title": "Component list concatenation", "statement": "rootComponent + extensionAddition + extensionAdditionGroups is the plain concatenation of the component lists in order, and grouping of the additions does not matter.", "quantifier": "all component lists", "why_tests_cant": "unbounded lists", "anchors": [{"file": "asn1PERser/classes/types/type.py", "symbol": "AdditiveNamedTypes.__add__"}]}
{"id": "C38", "title": "Composite constraints cover their members", "statement": "The lower/upper endpoints the codec uses for SingleValue, ConstraintOr and ConstraintAnd bound every value the constraint accepts, so every accepted value is encodable as a constrained whole number.", "quantifier": "all constraint trees, all values", "why_tests_cant": "unbounded trees", "anchors": [{"file": "asn1PERser/classes/types/constraint.py", "symbol": "SingleValue"}, {"file": "asn1PERser/classes/types/constraint.py", "symbol": "ConstraintOr"}, {"file": "asn1PERser/classes/types/constraint.py", "symbol": "ConstraintAnd"}]}
{"id": "C39", "title": "Open types isolate their content", "statement": "After an open type field the decoder is positioned exactly behind the announced octets, however many of them the inner type used.", "quantifier": "all inner types, all contents, all inputs", "why_tests_cant": "arbitrary content", "anchors": [{"file": "asn1PERser/codec/per/decoder.py", "symbol": "decode_open_type_field"}, {"file": "asn1PERser/codec/per/encoder.py", "symbol": "encode_open_type_field"}]}
{"id": "C40", "title": "encode does not change the value and is repeatable", "statement": "Calling encode twice on one object gives the same bytes, although encode instantiates missing components inside the object.", "quantifier": "all objects, any number of calls", "why_tests_cant": "histories of calls on mutable objects", "anchors": [{"file": "asn1PERser/codec/per/encoder.py", "symbol": "encode"}, {"file": "asn1PERser/codec/per/encoder.py", "symbol": "encode_sequence"}]}
{"id": "C41", "title": "Re-encoding is stable", "statement": "encode(decode(encode(v))) = encode(v).", "quantifier": "all schemas and values", "why_tests_cant": "all nestings", "anchors": [{"file": "asn1PERser/codec/per/encoder.py", "symbol": "encode"}, {"file": "asn1PERser/codec/per/decoder.py", "symbol": "decode"}]}
{"id": "C42", "title": "Newer receivers can read older messages", "statement": "A receiver whose schema has further additions/groups behind those of the sender decodes the sender's message to the sender's values, with the further ones absent.", "quantifier": "all schema pairs (old, new), all values", "why_tests_cant": "pairs of schemas", "anchors": [{"file": "asn1PERser/codec/per/decoder.py", "symbol": "decode_sequence"}]}
{"id": "C43", "title": "Extending an ENUMERATED or CHOICE keeps known encodings", "statement": "Items and alternatives known to the older version of an extensible ENUMERATED or CHOICE have the same encoding in every version that appends further ones.", "quantifier": "all schema pairs (old, new), all known items/alternatives and their values", "why_tests_cant": "pairs of schemas", "anchors": [{"file": "asn1PERser/codec/per/encoder.py", "symbol": "encode_enumerated"}, {"file": "asn1PERser/codec/per/encoder.py", "symbol": "encode_choice"}]}
{"id": "C44", "title": "Unknown items and alternatives are refused", "statement": "decode raises when the message selects an extension item (of an ENUMERATED numbered 0..n-1) or extension alternative (index below 2^64) that the receiver's schema does not have.", "quantifier": "all schema pairs (old, new), all unknown items/alternatives and their values, any trailing bytes", "why_tests_cant": "pairs of schemas, unbounded values", "anchors": [{"file": "asn1PERser/codec/per/decoder.py", "symbol": "decode_enumerated"}, {"file": "asn1PERser/codec/per/decoder.py", "symbol": "decode_choice"}]}
{"id": "C45", "title": "Encodings are those of X.691 ALIGNED PER", "statement": "For every supported type and every value that satisfies its constraints, the bytes encode returns are, bit for bit, the encoding the ALIGNED variant of X.691 prescribes (lengths below 16K).", "quantifier": "all types (any nesting), all values", "why_tests_cant": "unbounded types and values; a round trip test passes as well if encoder and decoder are wrong in the same way", "anchors": [{"file": "asn1PERser/codec/per/encoder.py", "symbol": "encode"}]}
{"id": "C46", "title": "Standard encodings are decoded", "statement": "decode reads the encoding X.691 prescribes for a value (whoever produced it, followed by anything) back as that value.", "quantifier": "all types (any nesting), all values, all trailing bytes", "why_tests_cant": "unbounded types and values", "anchors": [{"file": "asn1PERser/codec/per/decoder.py", "symbol": "decode"}]}
{"id": "C47", "title": "Generated classes have the bounds of the schema's constraints", "statement": "The class generated for INTEGER (constraint), or for a BIT STRING, OCTET STRING or SEQUENCE OF with (SIZE(constraint)), has as lower and upper bound the least and greatest number the constraint's root allows (none: unbounded), and is extensible exactly if the constraint has an extension marker. These bounds are determined by the constraint.", "quantifier": "all constraints, all values of the names used in them", "why_tests_cant": "unbounded constraints and numbers", "anchors": [{"file": "asn1PERser/classes/parse_actions.py", "symbol": "parse_Constraint"}, {"file": "asn1PERser/classes/types/builtin/IntegerType.py", "symbol": "IntegerType"}]}
{"id": "C48", "title": "The generated module declares what the schema declares", "statement": "For a schema whose assignments come in an order in which names are assigned before they are used, the generator terminates, the generated Python module can be imported, and in it every type name of the schema stands for a class of the declared type (components, order, OPTIONAL/DEFAULT with value, extension marker, additions and groups, constraints), every value name for the declared value; the classes of the library keep their meaning and there are no other names.", "quantifier": "all schemas, any number of assignments, any nesting of types", "why_tests_cant": "unbounded schemas", "anchors": [{"file": "asn1PERser/classes/module.py", "symbol": "ModuleDefinition.fill_template"}, {"file": "asn1PERser/classes/types/builtin/SequenceType.py", "symbol": "SequenceType.fill_template"}, {"file": "asn1PERser/classes/types/builtin/DefinedType.py", "symbol": "DefinedType.fill_template"}]}
{"id": "C49", "title": "Names are kept apart", "statement": "Different names of a schema become different Python names, type names never become the same as value names or identifiers, and no Python name has a hyphen.", "quantifier": "all names", "why_tests_cant": "unbounded names", "anchors": [{"file": "asn1PERser/classes/templates/__init__.py", "symbol": "Template.template_class_name"}]}
{"id": "C50", "title": "The compiler does not depend on the order of the schema", "statement": "Whatever the order of the assignments of a schema, sorting, generating and importing gives a module in which every type name stands for a class of the declared type and every value name for the declared value, without the warning that sorting failed. What the module defines is determined by the schema and the same for every order of the assignments, so that a message encoded with one such module is decoded with the other.", "quantifier": "all schemas, any number of assignments in any order, any nesting of types", "why_tests_cant": "unbounded schemas and all their permutations", "anchors": [{"file": "asn1PERser/classes/module.py", "symbol": "ModuleDefinition.sort_assigment_list"}, {"file": "asn1PERser/classes/module.py", "symbol": "ModuleDefinition.additional_sort"}, {"file": "asn1PERser/classes/parse_actions.py", "symbol": "parse_TypeAssignment"}]}
{"id": "C51", "title": "What the schema compiler accepts makes sense", "statement": "If the module generated from a schema can be imported, every name of it stands for a class whose value and size ranges have their ends in order, whose ENUMERATED types are numbered by position and whose DEFAULTs are values of the types of their components, or for a value that satisfies the constraints of its class. In particular DEFAULTs and constants outside of their range are refused, and every item of an ENUMERATED arrives as it was sent.", "quantifier": "all schemas, legal or not, any nesting of types", "why_tests_cant": "unbounded schemas, including those that nobody would write", "anchors": [{"file": "asn1PERser/classes/types/builtin/SequenceType.py", "symbol": "SequenceType"}, {"file": "asn1PERser/classes/types/builtin/EnumeratedType.py", "symbol": "EnumeratedType"}, {"file": "asn1PERser/classes/data/builtin/IntegerType.py", "symbol": "IntegerType"}, {"file": "asn1PERser/classes/data/builtin/SequenceOfType.py", "symbol": "SequenceOfType"}]}
{"id": "C52", "title": "The parser reads what was written", "statement": "However a schema is laid out (spaces, tabs, line ends, or nothing where two items cannot run together), the parser finds its assignments in their order, with the types, components, markers, groups, DEFAULTs, items, values that were written and with the ends of every constraint. In particular no text is the text of two different schemas.", "quantifier": "all schemas of the supported notation, any nesting of types, all layouts", "why_tests_cant": "unbounded texts; the alternatives of the grammar overlap and the longest match decides", "anchors": [{"file": "asn1PERser/asn_definitions/module_def.py", "symbol": "ModuleDefinition"}, {"file": "asn1PERser/asn_definitions/type_def.py", "symbol": "Type"}, {"file": "asn1PERser/asn_definitions/constraint_def.py", "symbol": "Constraint"}, {"file": "asn1PERser/classes/parse_actions.py", "symbol": "parse_Constraint"}]}
{"id": "C53", "title": "From the text of a schema to its module", "statement": "parse_asn1_schema gives, for the text of a schema with any layout and any comments, a module in which every name stands for the type or value that the schema declares; two texts of the same schema with different layout, comments or order of assignments give modules that understand each other's messages.", "quantifier": "all schemas of the supported notation, all layouts, all comments, all orders of the assignments", "why_tests_cant": "unbounded texts and schemas", "anchors": [{"file": "asn1PERser/__init__.py", "symbol": "parse_asn1_schema"}, {"file": "asn1PERser/classes/module.py", "symbol": "remove_comments"}]}
{"id": "C54", "title": "Schemas compiled in the same process do not disturb each other", "statement": "parse_asn1_schema gives for a schema the same module whatever other schemas the process has compiled before, in any number and any order: a module that uses only its own types and values depends on nothing else.", "quantifier": "all schemas, all sequences of schemas compiled before, all contents of the global dictionaries", "why_tests_cant": "unbounded sequences of calls and of schemas; hidden global state", "anchors": [{"file": "asn1PERser/classes/module.py", "symbol": "typereference_to_type"}, {"file": "asn1PERser/classes/module.py", "symbol": "constants"}, {"file": "asn1PERser/classes/module.py", "symbol": "already_filled_template"}, {"file": "asn1PERser/__init__.py", "symbol": "parse_asn1_schema"}]}
{"id": "C55", "title": "The generated text is Python and defines what the schema declares", "statement": "The text that parse_asn1_schema returns is a Python module that can be imported whenever classes can be made from the schema at all, and importing it binds every name of the schema to the class or value that the schema declares and binds no other names than those it imports. Two parties that compile and import their own texts of a schema understand each other's messages.", "quantifier": "all schema texts that are accepted, all layouts, comments and orders of assignments; all values of the declared types", "why_tests_cant": "unbounded schemas and generated texts; the tests compare a fixed number of texts with expected ones and do not run them", "anchors": [{"file": "asn1PERser/__init__.py", "symbol": "parse_asn1_schema"}, {"file": "asn1PERser/classes/templates/__init__.py", "symbol": "Template.fill_template"}, {"file": "asn1PERser/classes/module.py", "symbol": "ModuleDefinition.fill_template"}]}
{"id": "C56", "title": "What is received is not larger than the message warrants", "statement": "Whatever octets decode is given, the value it returns (components, elements, digits and octets counted) is at most as large as a number that depends only on the type, plus another number that depends only on the type for each bit received; a list of elements each of which takes at least a bit has no more elements than bits were received.", "quantifier": "all types, all octet strings received, including malformed and truncated ones", "why_tests_cant": "unbounded types and messages; adversarial inputs", "anchors": [{"file": "asn1PERser/codec/per/decoder.py", "symbol": "decode"}, {"file": "asn1PERser/codec/per/decoder.py", "symbol": "PerBytes.next"}, {"file": "asn1PERser/codec/per/decoder.py", "symbol": "decode_sequence_of"}, {"file": "asn1PERser/codec/per/decoder.py", "symbol": "decode_open_type_field"}]}
{"id": "C57", "title": "Interworking with a peer that follows the standards", "statement": "Take the text of a schema, the module that parse_asn1_schema generates from it, and the classes that importing the module gives. What encode makes of a value of such a class is the encoding that X.691 prescribes for the type that the schema declares under that name, and what X.691 prescribes for a value of that type, followed by anything, decode with that class reads as the value.", "quantifier": "all schemas the tool copes with, all layouts, comments and orders of assignments, all values, all octets that follow", "why_tests_cant": "needs the whole chain from the text of the schema to the octets for unbounded schemas and values, against an independent reference", "anchors": [{"file": "asn1PERser/__init__.py", "symbol": "parse_asn1_schema"}, {"file": "asn1PERser/codec/per/encoder.py", "symbol": "encode"}, {"file": "asn1PERser/codec/per/decoder.py", "symbol": "decode"}]}
{"id": "C58", "title": "Octets that are not a message are answered by known exceptions", "statement": "Whatever octets decode is given, if it does not return a value it raises ValueError, NotImplemented (a TypeError in Python 3), or an exception that the type accounts for: a constraint error if there is a constraint without extension marker, IndexError if there is a CHOICE, TypeError if there is an ENUMERATED; AttributeError only if a range in the type is empty or an ENUMERATED or CHOICE has no root, other TypeErrors only if a range lacks an end or a CHOICE can hold an empty BIT STRING. It never uses an unbound variable or a valueless object.", "quantifier": "all types, all octet strings received", "why_tests_cant": "unbounded types and messages; adversarial inputs", "anchors": [{"file": "asn1PERser/codec/per/decoder.py", "symbol": "decode"}, {"file": "asn1PERser/codec/per/decoder.py", "symbol": "decode_constrained_whole_number"}, {"file": "asn1PERser/codec/per/decoder.py", "symbol": "decode_choice"}, {"file": "asn1PERser/codec/per/decoder.py", "symbol": "decode_enumerated"}]}
{"id": "C59", "title": "Types that contain themselves are refused", "statement": "If the module generated for a schema can be imported, no type of the schema contains itself, neither directly nor through components, alternatives, elements or other names of types.  So a class that was generated always stands for a finite type, and a recursive schema is reported (by an exception) instead of being compiled to something else.", "quantifier": "For all schemas (texts, or lists of assignments in any order) whose types have distinct names, and all types in them.", "why_tests_cant": "Cycles can have any length and go through any combination of SEQUENCE, CHOICE, SEQUENCE OF, version brackets and aliases; a test shows only that some cycles are refused.", "anchors": [{"file": "asn1PERser/classes/types/builtin/SequenceType.py", "symbol": "SequenceType.fill_template"}, {"file": "asn1PERser/classes/types/builtin/SequenceOfType.py", "symbol": "SequenceOfType.fill_template"}, {"file": "asn1PERser/classes/module.py", "symbol": "ModuleDefinition.fill_template"}]}
{"id": "C60", "title": "Which values encode accepts, and how it refuses the others", "statement": "encode returns octets for exactly the values that satisfy conditions which can be read off from the type and the value (ranges, lengths up to 16384, components present, additions without gaps, at most 64 additions). If extensible ranges have both ends, no constructed type has a DEFAULT, no item number is negative and no version brackets are empty, a value of the type that satisfies the constraints of its simple components is never answered by an accidental exception (TypeError, ValueError, AttributeError, IndexError, an unbound variable): it is refused by NotImplemented, by the exceptions for missing mandatory components or additions, or by those for wrong numbers of elements.", "quantifier": "all types, all values", "why_tests_cant": "unbounded types and values; the conditions interact through nested open types, groups and presence bits", "anchors": [{"file": "asn1PERser/codec/per/encoder.py", "symbol": "encode"}, {"file": "asn1PERser/codec/per/encoder.py", "symbol": "encode_sequence"}, {"file": "asn1PERser/codec/per/encoder.py", "symbol": "encode_choice"}, {"file": "asn1PERser/codec/per/encoder.py", "symbol": "encode_length_determinant"}, {"file": "asn1PERser/codec/per/encoder.py", "symbol": "encode_sequence_of"}]}
{"id": "C61", "title": "How long a message can be", "statement": "The length of a message has an upper bound that can be computed without encoding: from the value and its type for every value that encode accepts, and from the type alone for every conforming value if no INTEGER, string or list in it is without limit or extensible.", "quantifier": "all types, all values, any position in a message", "why_tests_cant": "unbounded types and values; padding depends on the position and open types nest", "anchors": [{"file": "asn1PERser/codec/per/encoder.py", "symbol": "encode"}, {"file": "asn1PERser/codec/per/encoder.py", "symbol": "_produce_complete_encoding"}, {"file": "asn1PERser/codec/per/encoder.py", "symbol": "get_bit_field_size"}, {"file": "asn1PERser/codec/per/encoder.py", "symbol": "encode_open_type_field"}, {"file": "asn1PERser/codec/per/encoder.py", "symbol": "encode_sequence"}]}
{"id": "C62", "title": "Receivers with other versions of an ENUMERATED or CHOICE never misread", "statement": "Let one schema differ from another only in that extensible ENUMERATEDs have further items and CHOICEs further extension alternatives at the end, at any depth. For any bytes, decode with the older schema returns a value exactly if decode with the later one returns the same value and that value uses only items and alternatives of the older schema; otherwise it raises. Values that use only those (with DEFAULT values that use only those) have the same encoding in both.", "quantifier": "all schema pairs (older, later) of any depth, all byte strings, all values", "why_tests_cant": "pairs of schemas, adversarial input of any length", "anchors": [{"file": "asn1PERser/codec/per/decoder.py", "symbol": "decode_enumerated"}, {"file": "asn1PERser/codec/per/decoder.py", "symbol": "decode_choice"}, {"file": "asn1PERser/codec/per/encoder.py", "symbol": "encode_choice"}]}
{"id": "C63", "title": "Names only identify components", "statement": "Components and alternatives are looked up and stored by name. If the names in every SEQUENCE and CHOICE are distinct, encode and decode do for all values and all bytes what they would do with positions, and two schemas that differ only in names (of components, alternatives and items) have the same messages. If a name occurs twice in a SEQUENCE, encode raises for every value of it and decode returns only values without components; decode never returns a CHOICE in which a name occurs twice.", "quantifier": "all types of any depth, all values, all byte strings, all renamings", "why_tests_cant": "all renamings of unbounded types; name clashes between root, additions and groups", "anchors": [{"file": "asn1PERser/codec/per/encoder.py", "symbol": "encode_sequence"}, {"file": "asn1PERser/codec/per/encoder.py", "symbol": "encode_choice"}, {"file": "asn1PERser/codec/per/encoder.py", "symbol": "create_new_fake_empty_sequence"}, {"file": "asn1PERser/codec/per/decoder.py", "symbol": "decode_sequence"}, {"file": "asn1PERser/codec/per/decoder.py", "symbol": "decode_choice"}]}
{"id": "C64", "title": "The module is written where it was asked for", "statement": "parse_asn1_schema with an output folder writes one file, directly in that folder and named after the module of the schema; no schema can make it write elsewhere, and every other file keeps its content. The file holds the text that is returned when no folder is given, importing it by its name defines what the schema declares, and modules of different names do not overwrite each other. Whatever is refused leaves all files as they were; without a folder nothing is written.", "quantifier": "all texts of schemas (hostile ones included), all folders, all states of the file system", "why_tests_cant": "hostile module names and all later states of the disk; tests only look at the returned text", "anchors": [{"file": "asn1PERser/__init__.py", "symbol": "parse_asn1_schema"}, {"file": "asn1PERser/classes/module.py", "symbol": "ModuleDefinition.create_python_template"}, {"file": "asn1PERser/classes/parse_actions.py", "symbol": "parse_ModuleDefinition"}, {"file": "asn1PERser/asn_definitions/lexical_items.py", "symbol": "modulereference"}]}
{"id": "C65", "title": "Decoding depends on the class of asn1Spec only and does not change the object", "statement": "What decode returns or raises is determined by the octets and the class of asn1Spec: values the object holds, parts it shares with other objects, and earlier calls of decode with it or other objects (failed ones included) make no difference. decode leaves the object it is given, and all other objects of the program, as they were.", "quantifier": "all types, all states and sharing of objects, all sequences of calls, all octets", "why_tests_cant": "histories and sharing of mutable objects; the tests use a new object for every call", "anchors": [{"file": "asn1PERser/codec/per/decoder.py", "symbol": "decode"}, {"file": "asn1PERser/codec/per/decoder.py", "symbol": "decode_sequence"}, {"file": "asn1PERser/codec/per/decoder.py", "symbol": "decode_sequence_of"}, {"file": "asn1PERser/codec/per/decoder.py", "symbol": "decode_choice"}, {"file": "asn1PERser/codec/per/decoder.py", "symbol": "create_new_fake_empty_sequence"}]}
{"id": "C66", "title": "Looking at a value does not change what is sent", "statement": "to_dict(), reading components (obj['a']['b']) and encode() only look: after any of them, in any order and any number, encode gives the octets (or the exception) it would give without them, and to_dict the same dictionary. Only assignments make a difference.", "quantifier": "all types, all states of objects, all sequences of encode, to_dict, reading and assigning", "why_tests_cant": "histories of operations on a mutable object; each of them puts objects into unset components (pyasn1 instantiates on access), and the tests encode every object once", "anchors": [{"file": "asn1PERser/classes/data/builtin/SequenceType.py", "symbol": "SequenceType.to_dict"}, {"file": "asn1PERser/classes/data/builtin/SequenceType.py", "symbol": "SequenceType.isValue"}, {"file": "asn1PERser/classes/data/builtin/ChoiceType.py", "symbol": "ChoiceType.to_dict"}, {"file": "asn1PERser/codec/per/encoder.py", "symbol": "encode_sequence"}]}
{"id": "C67", "title": "Objects that share parts are encoded and shown as if each had its own", "statement": "A program may use one object as a component, element or alternative of several objects, or several times in one. Whatever it encodes, turns into dictionaries, reads and assigns, and in whatever order, each call of encode gives the octets (or the exception), and each call of to_dict the dictionary, it gives for an object in the same state that shares no part with another and was not encoded or looked at before; encode, to_dict and reading change nothing that was set in any object.", "quantifier": "all types, all states and sharing of objects, all sequences of encode, to_dict, reading and assignments", "why_tests_cant": "aliasing between mutable objects: encode fills unset components of shared parts in place; the tests build every object anew", "anchors": [{"file": "asn1PERser/codec/per/encoder.py", "symbol": "encode"}, {"file": "asn1PERser/codec/per/encoder.py", "symbol": "encode_sequence"}, {"file": "asn1PERser/codec/per/encoder.py", "symbol": "encode_sequence_of"}, {"file": "asn1PERser/codec/per/encoder.py", "symbol": "encode_choice"}, {"file": "asn1PERser/classes/data/builtin/SequenceType.py", "symbol": "SequenceType.isValue"}, {"file": "asn1PERser/classes/data/builtin/SequenceType.py", "symbol": "SequenceType.to_dict"}]}
{"id": "C68", "title": "A received object can be sent on, alone or as a part of another", "statement": "An object that decode returns is made of new objects only: no object the program had changes, and later changes of those do not change it. It, or a part of it, can be assigned to a component, an alternative or appended to a SEQUENCE OF of another object; encode of that object then gives the encoding of the value with the decoded value in that place, and encode of the received object itself that of the decoded value, whatever the program encodes, shows or reads before and in between. If decode raises, there is no new object.", "quantifier": "all types, all messages, all states and sharing of the other objects, all sequences of encode, to_dict and reading before and after the assignment", "why_tests_cant": "the tests compare decoded objects with expected ones but never put them into other objects; aliasing between what is received and what is sent depends on the whole state of the program", "anchors": [{"file": "asn1PERser/codec/per/decoder.py", "symbol": "decode"}, {"file": "asn1PERser/codec/per/decoder.py", "symbol": "decode_sequence"}, {"file": "asn1PERser/codec/per/decoder.py", "symbol": "decode_sequence_of"}, {"file": "asn1PERser/codec/per/decoder.py", "symbol": "decode_choice"}, {"file": "asn1PERser/codec/per/encoder.py", "symbol": "encode"}]}
{"id": "C69", "title": "Objects hold what was decoded and assigned, and nothing else changes them", "statement": "The object that decode returns holds the decoded value and is made of new objects only: no object the program had changes, and later changes of those do not change it. If decode raises, there is no new object. A component, element or chosen alternative of an object holds that part of its value. Assigning an object to a component or alternative, or appending it to a SEQUENCE OF, replaces or adds exactly that part of the value of the object assigned to, and has no effect on what objects hold that do not contain it.", "quantifier": "all types, all messages, all states and sharing of the program's objects, all assignments of objects of the right types", "why_tests_cant": "aliasing between objects that are received, assigned and shared depends on the whole state of the program; the tests build each object once and do not look at others", "anchors": [{"file": "asn1PERser/codec/per/decoder.py", "symbol": "decode"}, {"file": "asn1PERser/codec/per/decoder.py", "symbol": "decode_sequence"}, {"file": "asn1PERser/codec/per/decoder.py", "symbol": "decode_sequence_of"}, {"file": "asn1PERser/codec/per/decoder.py", "symbol": "decode_choice"}]}
{"id": "C70", "title": "What is read depends only on what follows and on the place within the octet", "statement": "Two readers, of the same or of different messages, that have the same bits before them and stand at the same bit of an octet, raise the same exception or return the same value, having read the same number of bits. In particular, at the beginning of an octet a reader obtains from what remains exactly the value that decode returns for what remains as a message of its own, however much was read before (values that decode returns as a message of their own).", "quantifier": "all types, all messages, all positions", "why_tests_cant": "tests read each type at one or two places of a few messages; a dependence on the absolute position or on what was read before shows only at other places", "anchors": [{"file": "asn1PERser/codec/per/decoder.py", "symbol": "PerBytes"}, {"file": "asn1PERser/codec/per/decoder.py", "symbol": "decode"}, {"file": "asn1PERser/codec/per/decoder.py", "symbol": "decode_sequence"}, {"file": "asn1PERser/codec/per/decoder.py", "symbol": "decode_sequence_of"}, {"file": "asn1PERser/codec/per/decoder.py", "symbol": "decode_choice"}]}
