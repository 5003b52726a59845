# Formal model of asn1PERser (Lean 4)

The project is a PER (X.691, ALIGNED variant) codec built on pyasn1 plus a small
ASN.1 schema compiler.  The code is read as text only; it is neither built nor run.

## 1. What is modelled, and how

All modules live in `lean/Verif/`.

| Lean module | code modelled |
|---|---|
| `Py` | the Python primitives the codec leans on: `bin`, `hex`, `zfill`, `'{:0nb}'.format`, `int(s, 2)`, `hexlify`, `codecs.decode(_, 'hex_codec')`, `OctetString.fromHexString` |
| `Constraint` | `classes/types/constraint.py` |
| `Types` | schema objects (`Ty`) and values (`Val`), constructors of pyasn1 values, `isValue` |
| `Encoder` | `codec/per/encoder.py`, every function |
| `Object` | encoding once more, on objects with state: what `getComponentByName` leaves in them |
| `Decoder` | `codec/per/decoder.py`, every function (logging omitted) |
| `Named` | `Encoder` and `Decoder` once more, with components and alternatives found by their names, as the code does it |
| `ToDict` | `to_dict` of `classes/data/builtin/*.py` |
| `Module` | `classes/module.py`: sorting, alias insertion, comment removal |
| `Template` | the data part of `fill_template` in `types/builtin/{Enumerated,Sequence,Choice}Type.py`; `AdditiveNamedTypes.__add__` |
| `Generate` | the schema compiler: from parsed assignments (`classes/parse_actions.py`, `classes/types/builtin/*.py`, `classes/module.py` `fill_template`, `classes/templates/files/*.txt`) to the statements of the generated module, and what importing them defines |
| `Compiler` | the compiler as a whole: the setter of `ModuleBody` (sorting) followed by `Generate` |
| `Pyparsing` | the elements of the parser library that the grammar is made of (not in the repository): tokens, `And`, `Or` (longest match), `ZeroOrMore`, parse actions, `nestedExpr` |
| `Grammar` | `asn_definitions/*.py` and `classes/parse_actions.py`: from the text of a schema to assignments; `compileText` is `parse_asn1_schema` |
| `Jinja` | the template language (not in the repository) as far as the templates use it: reading a template, filling it |
| `TemplateFiles` | `classes/templates/files/*.txt`, line by line |
| `Render` | the text of the generated module: `fill_template` with the text the templates give |
| `Python` | what `import` makes of such a text: the part of Python the templates use, its lexer, lines, blocks, expressions, classes |
| `Files` | `parse_asn1_schema` with an output folder, `create_python_template`: `os.path.join`, `open`, `write` on a disk (folders and files), and the `import` of the file by its name |
| `Heap` | `codec/per/decoder.py` again, walking through objects with addresses instead of types: `getComponentByName`/`getComponentByPosition`, `getComponentType`, `clone`; the objects stay changed after exceptions |
| `Looking` | `to_dict` of `classes/data/builtin/*.py` as an operation on objects (the object that is left is part of the result), and reading a component (`__getitem__`) |
| `Shared` | the encoder and `to_dict` on objects with addresses, so that one object can be a part of several others; reading (`readAt`) and assigning parts (`setAt`, `appendAt`, `chooseAt`) |
| `Received` | the objects that `decode` returns, added to those of the program (`build`, `receive`) |
| `Session` | several schemas in one process: the dictionaries of `classes/module.py:10-12`, which are never cleared |

Conventions:

* Bit strings (Python `str` of '0'/'1') are `List Bool`, most significant bit first; octets are `UInt8`.
* Integers are unbounded (`Int`/`Nat`), as in Python.
* A Python exception is a value of `Err`; every function that can raise returns `Except Err _`.
  `raise NotImplemented` (which in Python raises `TypeError`) is `Err.notImplemented`.
* The decoder's mutable `PerBytes`/`Offset` is threaded as state; `prev_*`/`curr_*` are kept.
* Schema objects form finite trees (`Ty`); recursion through Python class references is not modelled; generated modules have none (C59).
* A SEQUENCE value is the list of its components, in `componentType` order (root, additions, groups), each set (`some`) or unset (`none`).
* `Encoder`, `Decoder` and `Object` find components and alternatives by position.  The code finds them by name.  `Named` does so
  too, and C63 proves that it makes no difference where names are distinct.

Properties are stated in `Verif/Props/*.lean` against small independent specifications, not against helpers of the model:

| Lean module | vocabulary |
|---|---|
| `Spec` | positional bit strings, two's complement, X.691 formats, counters, components by position, "is given", "has a value", "reads as", typing |
| `SpecX691` | a reference for ALIGNED PER, written from the clauses of X.691 (`X691.message`), and the values for which the encoder follows it (`X691.regular`) |
| `SpecObject` | histories of `encode` calls and assignments on one object |
| `SpecDict` | what a dict shows; values whose dict shows all there is (`evident`), DEFAULTs written out (`completed`) |
| `SpecModule` | names, references, lines of a schema |
| `SpecTemplate` | what an extension marker means in a component list |
| `SpecGenerate` | what a schema declares (`Declares`, `Means`, `LitIs`: X.680 as far as it concerns the encoding), and the schemas the generator copes with (`RegularAssign`, `Names`) |
| `SpecCompiler` | what a schema declares if its assignments come in any order (`Solves`), and the schemas for which the order of the compiler is good enough (`Sortable`) |
| `SpecSound` | classes and values that make sense: ranges in order, items numbered by position, DEFAULTs of their type |
| `SpecSchema` | the lexical items of a schema (X.680) and the texts they can be laid out in (`Written`); the schemas the grammar copes with (`WritableAssign`) |
| `SpecSize` | size of a value (`weight`), types that take at least a bit (`needsBit`), what can be received (`cost`) |
| `SpecFaults` | the exceptions that the types of a message account for (`mayRaise`) |
| `SpecRecursion` | types that contain themselves (`Contains`) |
| `SpecDomain` | the values that encode takes (`encodable`), the exceptions with which it refuses (`refusal`) and for which values no other occur (`fair`) |
| `SpecExtent` | bounds for the bits of a message, from the value (`extent`) and from the type alone (`largest`) |
| `SpecText` | statements of a generated module that can be written down (`writable`); schemas whose words are words (`Worded`) |
| `SpecSession` | schemas that stand alone: their types are their own (`Closed`), their DEFAULTs are not values of others (`Unaffected`) |
| `SpecVersions` | groups that hold something whenever they are there (`firm`), for the exact statements of C26 and C42; versions of a schema that differ in items and alternatives at any depth (`Later`), values that use only those of the older one (`known`), for C62 |
| `SpecNames` | types whose names are distinct (`wellNamed`), types without their names (`anonymous`) |
| `SpecFiles` | the file a module belongs in (`moduleFile`), names without separators (`PlainName`), disks that differ in one file (`SameBut`) |
| `SpecHeap` | objects that are made of what their classes say (`WellFormed`), what calls leave alone (`KeptObjects`), the depth of a type (`height`) |
| `SpecLooking` | histories in which an object is encoded, looked at and assigned to (`Act`), what the calls would give if nobody had looked (`encodingsAlone`, `dictionariesAlone`); types in which looking is harmless (`sturdy`, `quiet`, `clear`) |
| `SpecShared` | stores whose objects have parts of the right types (`WellTyped`), programs that encode, build dictionaries, read and assign (`Deed`), the object written out as a tree (`encodeApart`, `dictApart`), what the calls should give (`envisaged`, `pictured`) |
| `SpecReceived` | an object holds a value (`Holds`), the objects after a program (`doneAll`), parts have the right types (`Typed`), one object contains another (`Within`) |
| `SpecTruncate` | types whose fields (`narrow`) or last fields (`closing`) lie inside one octet, computed from the distance to the last octet boundary |

`Spec` has its own notions of "carries a value" (`valued`), "reads as" (`held`), "never touched" (`untouched`),
"the number of a bit string" (`number`), OPTIONAL and DEFAULT (`isOpt`, `hasDefault`).  `Lemmas/Vocabulary` proves
that they agree with what the code computes (`isValue`, `effective`, ...), so an error in one of those helpers of the
model makes proofs fail instead of changing the meaning of a property.  What `Spec` still takes from the model are
the data types (`Ty`, `Val`, `Constr`) and the constraint functions `test`/`lower`/`upper`/`ext`, which are
specified themselves by C16 and C38.

`Lemmas/*` are the proofs' intermediate steps; nothing there is claimed.

## 2. Trusted base

* Lean 4.33.0 kernel; the axioms `propext`, `Classical.choice`, `Quot.sound` only (`#print axioms` for every property theorem).
* The correspondence between the Lean definitions and the Python text (each definition cites file and lines).
  Tested against the project's own tests: `Vectors` has all 1532 vectors of `test/per` and `test/dict_creation` (but one, see
  there), each evaluated by the kernel on the model; `tools/vectors.py` reads them from the test files as text.
* The reference of X.691 (`SpecX691`), written from the clauses of the standard; tested against the standard's own
  examples A.1 and A.4 in `Props/Annex`.
* pyasn1 (not in the repository).  Behaviour assumed:
  - constructing an INTEGER / BIT STRING / OCTET STRING object runs `subtypeSpec(value)`, which raises when `_testValue` rejects;
  - `BitString.asBinary()` gives the bits with leading zeros, except that the empty bit string gives `'0'`;
  - `OctetString.asNumbers()` gives the octets; `fromHexString` pairs digits and pads an odd last digit with `0` on the right;
  - `NamedValues.getName(i)` gives the name numbered `i` or `None`, and constructing an Enumerated from `None` raises/gives a valueless object (modelled as an error);
  - `getComponentByName` instantiates an unset component: simple types become a valueless schema object (or the default), constructed types an empty object;
  - a valueless simple object raises when its value is used; `isValue` as in pyasn1 >= 0.4.7;
  - comparing a CHOICE compares the chosen alternative, comparing a BIT STRING takes the other side for a BIT STRING,
    objects of other types differ from any text (`equalsEmpty`); constructed types take no positional argument;
  - (only `Object`) a SEQUENCE OF or SEQUENCE without components is `noValue` inside; iterating over a SEQUENCE OF does not
    add elements; `getComponentByName` stores the object it instantiates; `obj[name] = v` replaces the object of one
    component; no two components share an object (except in `Shared` and `Heap`);
  - (only `Named`) the table of names of a class in which a name occurs twice raises whenever it is used (`PostponedError`);
    `getName` of a CHOICE does not use it;
  - comparing `_value` of two BIT STRINGs compares them as integers;
  - (only `Generate`) `ValueRangeConstraint` refuses a lower bound above the upper one; `Integer(x)`, `OctetString(x)` and
    so on take over the value of another object and check the constraint; `hexValue`/`binValue` as documented.
* pyparsing 2.4.7 (not in the repository): `Pyparsing` is written from its documentation; `Or` tries the alternatives without
  parse actions, then the one that reached farthest (the first of them) with parse actions; white space is skipped before
  every element; tabs are expanded first; an `IndexError` of a parse action is a failed match.
* `Generate` starts from parsed assignments (what the grammar makes of the text is `Grammar`) in the order of `ModuleBody`; `Compiler` starts from the order of the schema.  The dictionaries of module.py:10-13
  are filled in the order of the schema, in the model in that of `ModuleBody`; names that are assigned twice, the only ones
  for which this matters, are excluded by `Names`.  `Generate` represents the generated text by statements (`Stmt`, `Code`), one constructor per
  template, and models running them as far as the templates go: names are looked up in the class body and then in the module.
  The text itself is in `Render`: for the 14 schemas under `test/parsing` it is the same, character by character, as
  the expected files there, all of which `Python.run` reads (found by evaluating the model, `tools/schemas.py`, not part of
  the build: a test, not a proof; the assignments of `ComponentTypes_containing_ComponentTypes` were parsed one by one for this, since
  evaluating the model of the parser on the whole schema needs too much memory).
  `typereference_to_type` is that of a process that has parsed one module; for other processes see `Session` and C54.  Where the model does not say what happens
  (for example a name that hides one of the library) the result is `GenErr.unmodelled`, and no theorem is about it.
* Jinja2 (not in the repository): `Jinja` is written from its documentation (default options; `{%-` strips the white space
  before it; `indent` leaves the first line and empty lines alone).
* Python: `Python` is written from the language reference.  It refuses more than Python does, and reads nothing differently.
* Files: `Files` knows POSIX paths without symbolic links; a file holds characters.  The encoding `open` chooses, permissions, full disks and
  folders named with a NUL are left out.
* Objects: `Heap` assumes that an object has the constraints of its class (`subtype()` on an instance is not modelled), that `componentType` is not
  reassigned, and that no type contains itself.  Clones of components with a DEFAULT of a constructed type are empty.
* Not modelled: logging, the float arithmetic in `int(len(x)/8)`
  (exact below 2^53), memory limits, recursive schemas, tags, SET types.

## 3. Plan per property

(C06..C09) `C06_elements`, `C07_alternative`, `C08_components`: from "arrives as something" for the contents; `C07_alternative_exact`: the converse, by C70; behind the
extension marker (`C07_addition_alone`, `C07_addition_exact`, `C07_group_alone`, `C07_group_exact`, `C09_additions_alone`) from "arrives as a message of its own".

(C01..C07) leaf and container round trips: lemma of the form "decoder started at the bit where the encoder
started returns the value and stops where the encoder stopped", for every prefix and every suffix of the bit stream.
For the simple types and the number of elements of a list also the converse (`Props/Exact`): what a decoder can
return at all, whatever the message, is bounded (lengths below 16384, first digit not 0, ...), so that every value outside
`Spec.safe*` is refused or changed, or leaves the reader at another bit.
(C08..C12, C30, C41) mutual structural induction over schema trees using the leaf lemmas, for any decoders of the simple
types (`decWith`).  With those of the code it gives C08..C11; with repaired ones (`Lemmas/Repaired`, not a model of
anything) it gives an inverse of the encoder and with it C12 without the defects of the decoder.
(C13) induction over the field list.  (C14) refinement of `Offset`/`PerBytes` to one natural number.
(C15) induction over schema trees on the decoder alone; messages that violate a size whose field is not filled (`Props/CountExact`).  (C16, C38) constraint algebra.
(C17..C19) characterisation against independent X.691 style definitions; C18, C19 exactly (`Props/FormatExact`).
(C20..C26) from the shape of the SEQUENCE encoder / decoder; C21..C24 exactly (`Props/DefaultExact`, `Props/LimitsExact`, `Props/UnsetExact`, `Props/MissingExact`); C25, C26, C42 also in the other direction (`_exact`): which
extensions a receiver takes for present follows from its own number of extensions and the first 1 of the presence bits.
(C27) false of the code: witness, and the full claim for types whose last field lies inside one octet, by a static analysis
of the positions in the octet that is proved sound against the decoder.
(C28, C29) `to_dict` by induction over the schema; what is left out is counted (`C28_sequence_of_exact`, `C28_choice_exact`).  (C31..C34) list algorithms.
(C35..C37) list algorithms of the generator.  (C39) from the decoder state lemmas.
(C40) a relation between values and the objects that show them, kept by `encode` and by assignment, by induction over schema trees.
(C45, C46) induction over schema trees: the fields the encoder lists, padded from any bit position on, are what the
reference writes from that position on.  Round trips alone would accept a codec whose two halves are wrong in the same
way (extension bit inverted, other alignment, other index); these two properties do not. For INTEGER the deviation is exact (a raw length and the standard's length would make a Mersenne number divide a power of two), likewise for BIT STRING (the empty one is sent as the string `0`).
(C47) the constraint's token list keeps only the first and the last end (so the condition of `C47_exact`).  (C48) class by class by induction over the type
notation, module by an invariant over the assignments loaded so far.  (C49) from the characters of the names.
(C50) C31-C33 say that sorting gives an order in which nothing is used before it is assigned; a solution of the
equations of the schema restricted to what has been assigned so far is then a declaration in the sense of C48.
(C51) Needs no hypothesis about the schema: an invariant of the generated statements (items are numbered by position)
and of the names of the module while it is loaded (what the constructors of pyasn1 have checked).
(C52) For every production: it reads the items of what was written and nothing else (`Reads`), whatever the white space,
and no alternative of an `Or` reaches farther.  The lists and the nesting of types by induction.
(C53) C34 and C52, and the compiler looks only at the ends of a constraint; then C50.
(C54) The generator looks up only names that its module can reach; for these the dictionaries of a process with and without
a past agree.  A chain of references is no longer than the number of types of the module (pigeonhole), so that the
number of entries, which bounds it in the model, does not matter either.
(C55) Four steps.  The parser returns only words where words belong (`Lemmas/ParseSound`).  From such assignments only
statements are generated that can be written down (`Lemmas/Writable`).  The text of such statements, line by line
(`PyText`, `PyShape`, `PyTemplates`, `PyRender`), is read back as their syntax tree (`PyLex`, `PyLines`, `PyLogical`,
`PyParse`, `PyModule`).  Running the tree defines what `Generate.load` says (`PyExec`, `PyRun`).  So everything that is
proved of `load` (C48, C50, C51, C53) holds of the text.
(C56) `Bound m s k`: what the reader `m` returns has at most the size that `k` allows for the bits it has read; composed along
the decoder.  `Eats`: a reader that succeeds only by taking a bit.
(C46) `C46_misread`: the first octet of the length bounds what is read.  (C57) C55 with C45 and C46.  (C58) `Raises`: the exceptions of a reader, composed along the decoder.
(C59) A class body looks up everything it mentions, so what a type mentions is bound by an earlier statement of the module;
the positions of the statements decrease along a chain of mentions.
(C60) `Done x`: there is a result, an equivalence for every function of the encoder.  `Fails P x`: the exceptions.
(C61) `Sized fs n`: the fields take at most n bits, with 7 bits of padding before each aligned field that does not follow whole octets.
(C62) `Below m m' S`: one reader returns exactly those results of the other that satisfy S; composed along the decoder.
(C63) Looking a name up gives its position; storing what was read under names puts it into its place.  An unknown extension
alternative raises before its open type is read in `Named` (and the code), after it in `Decoder`; the theorem is about what is returned.
(C64) The first token of a module is a word of letters, digits and hyphens, so `os.path.join` stays in the folder; the text is made before
the file is opened.
(C65) `Agree`: a computation on objects does what the one on types does, in every later state of the objects; by induction on the depth of the type.
(C66) `Like`: objects that differ only in components that were asked for; every operation leaves a `Like` object, assignments keep `Like`, and on `quiet`/`clear` types `Like` objects give the same.
(C67) `Grown`: a store in which unset components were filled with new objects; trees in it are `Like` those before; asking for a component and assigning keep it; `encode`, `to_dict` and reading lead to such stores for all types (`Keeps`); `encode` and `to_dict` give what they give for trees by simulation.
(C68) What `decode` accepts has the shape of the type (C15), so building the objects adds objects of the right types that refer to each other only; objects of smaller types cannot contain the object that is assigned to, so assigning replaces one part of the value; then C67.
(C69) The same without the restriction on DEFAULT, as nothing is read: the model of building (`Built`) with `light` as an option; an object's tree depends only on what is `Within` it.
(C70) `Moved m`: two readers with the same bits before them at the same place within the octet run alike; holds for one read (`next_eq`) and is kept by composition.

Status per property and exact theorem names: `MANIFEST.json`.

## 4. Findings (properties the unchanged code violates)

Found by trying to prove the full statements.  Witnesses are theorems of `Verif.Props.Findings` unless another
place is given; line numbers are of `asn1PERser/codec/per/{encoder,decoder}.py`.

| no. | what happens | where in the code | witness |
|---|---|---|---|
| F1 | OCTET STRING (SIZE(lb..ub)) starting with an octet below 16 arrives shifted by one hex digit, or shorter | decoder 292-293: `hex(v)` is not filled up | `C05_leading_zero_digit` |
| F2 | an empty OCTET STRING without SIZE arrives as one zero octet | decoder 303-307 | `C05_empty` |
| F3 | an empty BIT STRING is sent as one 0 bit | encoder 125: `asBinary()` of an empty string is `'0'` | `C04_empty`, `C12_empty_bit_string`, `C45_empty_bit_string` |
| F4 | INTEGER (k..k, ...) arrives as 0, SEQUENCE (SIZE(n, ...)) OF arrives empty | decoder 586-600, 629-650, 716-733: range 1 gives 0 instead of the lower bound | `C01_single_value_root`, `C06_fixed_size_extensible` |
| F5 | a length of 16384 is accepted but written in 17 bits | encoder 570: `<=` instead of `<` | `C19_length_16384` |
| F6 | the length of an unconstrained INTEGER is one raw octet: not X.691 from 128 octets on, corrupt from 256 on | encoder 525-535 | `C18_length_not_an_octet`, `C01_256_octets`, `C45_128_octets` |
| F7 | after a BIT STRING outside its extensible SIZE the decoder aligns, the encoder does not | decoder 177 | `C04_outside_then_boolean`, `C11_bit_string_overrun` |
| F8 | an empty OCTET STRING (SIZE(0..n)), n < 255, loses what follows it | decoder 288-291 returns without aligning | `C05_empty_then_boolean` |
| F9 | OCTET STRING (SIZE(0, ...)) drops its extension bit when empty | encoder 197-198 | `C05_size_zero_extensible`, `C45_size_zero_extensible` |
| F10 | truncated input decodes to a value: missing bits are not noticed | decoder `PerBytes.get_bits` slices | `C27_truncated` |
| F11 | an INTEGER with extension bit 0 may decode to a value outside the root | decoder 95-101 | `C15_outside_root` |
| F12 | presence bits of extensions are aligned to the wrong end when sender and receiver know different numbers of extensions; unknown additions are not skipped | decoder 374-375 | `C26_first_absent`, `C26_nested`, `C42_newer_receiver` |
| F13 | a BIT STRING is compared with its DEFAULT as a number | encoder 253 | `C21_bitstring_default`, `C45_bit_string_default` |
| F14 | gaps before extension additions are only noticed right before them; additions with DEFAULT are always sent | encoder 279-331 | `C24_hidden_gap`, `C24_group_after_gap`, `C21_addition_default`, `C25_default_addition`, `C45_addition_default` |
| F15 | an OPTIONAL empty SEQUENCE OF / SEQUENCE is taken for absent | encoder 241-247 | `C08_optional_empty_list`, `C45_optional_empty_list` |
| F16 | ENUMERATED items numbered other than 0, 1, 2, ... arrive as another item or not at all | decoder 135-157 | `C02_numbers`, `C12_numbers`, `C45_numbers` |
| F17 | SEQUENCE (SIZE(0)) OF with elements is encoded | encoder 357-390 | `C22_size_zero` |
| F18 | extensible SIZE with MAX cannot be encoded | encoder 363 | `C06_extensible_max`, `C45_octet_string_64k` |
| F21 | SEQUENCE OF with more or fewer elements than allowed is accepted by decode | decoder 416-498 | `C15_sequence_of_too_long` |
| F23 | re-encoding a received value gives other bytes | from F15 | `C41_reencode` |
| F24 | a mandatory SEQUENCE / SEQUENCE OF never touched is encoded as empty | encoder 258-263 | `C23_untouched_list` |
| F25 | a union member with an extension marker switches the whole check off | constraint.py | `C38_marked_member` |
| F26 | `to_dict` of BIT STRINGs of different length may be the same number | data/builtin/BitStringType.py:20 | `C29_bit_string_length` |
| F27 | `to_dict` has entries for absent components, and none for present ones that are empty | data/builtin/SequenceType.py:38-47, ChoiceType.py:23-28, SequenceOfType.py:22-31 | `C28_absent_choice`, `C28_absent_sequence`, `C28_empty_list`, `C28_empty_elements`, `C28_choice_empty_list` |
| F28 | `to_dict` of what arrives differs from `to_dict` of what was sent | from F15, F27 | `C30_choice_default`, `C30_optional_list_dropped`, `C08_optional_list_dropped` |
| F29 | of two component types with the same name one is lost | classes/module.py:89-93 | `C31_same_name` |
| F30 | "Could not sort components properly" is logged for a chain of exactly 100 references although the result is in order | classes/module.py:71-104: the `while` gives up before looking at `all_sorted` | `C32_warning` |
| F31 | aliases of aliases, and components of alias type, come before what they name | classes/module.py:78-91, 123-141 | `C33_alias_of_alias`, `C32_alias_component`, `C50_alias_of_alias`, `C50_alias_component` (the modules cannot be imported) |
| F32 | CR LF, VT, FF, ... become LF; a line end is added to the last line | classes/module.py:205-207 | `C34_line_ends` |
| F33 | single additions declared after a group come before it; components after a second `...` become additions instead of root components | types/builtin/SequenceType.py:21-40, ChoiceType.py:21-40 | `C36_mixed`, `C36_second_marker` |
| F34 | numbers given in `ENUMERATED { a(5) }` end up in the name of the item, `{'5': 'a'}`, which is numbered by position; with its quotes inside quotes the module is not valid Python | types/builtin/EnumeratedType.py:21-27, 45-50 | `C35_given_numbers` |
| F35 | the first `encode` makes values of mandatory SEQUENCEs without set components; a second one may raise | encoder 239-263, 305-322 | `C40_second_call`, `C40_becomes_value` |

The schema compiler (witnesses: `Verif.Props.Findings`, files `Props/FindingsGenerate.lean`, `Props/FindingsCompiler.lean`; line numbers of
`asn1PERser/classes/types/builtin/*.py`).  Each is a schema that X.680 allows and the compiler accepts.

| no. | what happens | where in the code | witness |
|---|---|---|---|
| F36 | `INTEGER (1..10, ..., 20..30)` gets the root 1..30 | parse_actions.py `parse_Constraint`: first and last token count | `C47_additional` |
| F37 | `INTEGER (0<..10)` gets 0..10 | grammar drops `<` | `C47_less_than` |
| F38 | `INTEGER (0..10 ^ 5..20)` gets 0..20 | as F36 | `C47_intersection` |
| F39 | the module of `INTEGER (5 \| 1)` cannot be imported | as F36 | `C47_order` |
| F40 | `(SIZE(1..5), ...)` is not extensible | parse_actions.py `parse_Constraint` looks only inside of SIZE | `C47_marker_outside` |
| F41 | `SIZE(MIN..5)` has no lower bound instead of 0 | templates: `MIN` is `None` | `C47_size_min` |
| F42 | `A ::= SEQUENCE OF INTEGER (0..7)` forgets the element's constraint | SequenceOfType.py:13-28 | `C48_element` |
| F43 | inside of a SEQUENCE it makes every later INTEGER an `INTEGER (0..7)` | SequenceType.py:72-75 emits `class IntegerType(IntegerType)` | `C48_redefined` |
| F44 | an anonymous extensible SEQUENCE as element makes every later SEQUENCE extensible | SequenceOfType.py:27 emits `class SequenceType(SequenceType)` | `C48_redefined_sequence` |
| F45 | a DEFAULT of OCTET STRING / BIT STRING that is a value name is dropped, the component is mandatory | OctetStringType.py `parse_value`, SequenceType.py:94-103 | `C48_default_dropped` |
| F46 | a DEFAULT of BOOLEAN that is a value name becomes FALSE | BooleanType.py `parse_value` | `C48_default_false` |
| F47 | `x B DEFAULT TRUE` with `B ::= A`, `A ::= BOOLEAN`: the module cannot be imported | SequenceType.py:101-102 looks at one alias only | `C48_default_alias` |
| F48 | a component whose DEFAULT is a constant gets the constant's type | SequenceType.py:96-98 | `C48_default_type` |
| F49 | a value name with a hyphen in a constraint: the module cannot be imported | parse_actions.py `parse_Constraint`: name not translated | `C47_hyphen` |
| F50 | a DEFAULT by value name is captured by a component of that name with a nested class | files/SequenceType.txt | not modelled |
| F51 | the generator does not terminate for a value of an ENUMERATED type | DefinedType.py:20-21 | `C48_hang` |
| F52 | an ENUMERATED DEFAULT with the name of a constant makes the component an INTEGER | SequenceType.py:96-98 | `C48_default_captured` |
| F53 | reserved words of Python are not avoided | templates | `C49_keyword` |
| F54 | a type with the name of a class of the library takes its place | templates | `C49_library` |
| F55 | a component named like an attribute of the class (`items`, `values`, `clone`, ...) with a type written in place hides it; `to_dict` calls `self.items()` | files/SequenceType.txt, data/builtin/SequenceType.py:39 | not modelled |
| F56 | `Foo ::= RealType` for a type `RealType` of the schema becomes `Foo = Foo`: the module cannot be imported | parse_actions.py:37-38 | `C50_builtin_name` |
| F57 | a value that is used before the line that assigns it: the module cannot be imported | classes/module.py:40-61 keeps values in the order of the schema | `C50_value_before` |
| F58 | a value of a named type as bound of a type without components: the module cannot be imported | classes/module.py:61 puts such values after those types | `C50_constant_bound` |
| F59 | `SEQUENCE (SIZE(5..1)) OF` is accepted, other ranges with ends out of order are refused | data/builtin/constraint.py:29-50: an intersection does not check | `C51_empty_size` |
| F60 | two spaces or a line end in `OCTET STRING`, `BIT STRING`, `SEQUENCE OF`, `AUTOMATIC TAGS`: refused | type_def.py:22-30, module_def.py:13: one literal | `C52_one_space` |
| F61 | an intersection of three: refused | constraint_def.py:133-137 | `C52_three` |
| F62 | `(1 7)` is accepted and means `(1..7)` | constraint_def.py:144-148: the bar is optional | `C52_no_bar` |
| F63 | the constraint in `SEQUENCE OF B (0..3)` becomes the size of the SEQUENCE OF | type_def.py:459-464 | `C52_element_constraint` |
| F64 | constraints of referenced types and second constraints: refused | type_def.py:459-464 | `C52_constrained_reference` |
| F65 | `SEQUENCE SIZE (1..5) OF`: refused | type_def.py:446-455 | `C52_size_of` |
| F66 | a component with `DEFAULT {}` is mandatory | parse_actions.py:113-124: an `IndexError` is caught | `C52_default_empty` |
| F67 | `(1..9 EXCEPT 5)` means `(1..5)` | parse_actions.py:187-198: first and last token | `C52_except` |
| F68 | of `(SIZE(1..9) ^ SIZE(2..5))` only the first is seen | parse_actions.py:187-198 | `C52_second_size` |
| F69 | `INTEGER (SIZE(1..5))` is `INTEGER (1..5)`; `OCTET STRING (1..5)` is `OCTET STRING (SIZE(1..5))` | parse_actions.py:187-198 | `C52_kind` |
| F70 | `NULL`, tags, `SEQUENCE OF x B`, `[[ 2: ... ]]`: `AttributeError` | parse_actions.py | `C52_attribute` |
| F71 | `((1..5))`: `TypeError` | parse_actions.py:187-198 | `C52_parentheses` |
| F72 | the names in `INTEGER { one(1) }` are dropped; using one gives a module that cannot be imported | parse_actions.py:92-110 | `C52_named_number` |
| F73 | the constraint in `a INTEGER (0..5) ::= 7` is dropped | IntegerType.py:13-16 | `C52_value_constraint` |
| F74 | keywords need not end (`BEGINA`), and what follows `END` is ignored | module_def.py, `Literal`; `parseString` without `parseAll` | `C52_end` |
| F75 | a comment that is closed on its line hides what follows on that line | classes/module.py `remove_comments` | `C53_inner_comment` |
| F76 | `IMPORTS`, `EXPORTS`, `IMPLICIT TAGS`, module identifications, `EXTENSIBILITY IMPLIED`: refused | module_def.py:97-208 | `C52_header` |
| F77 | a value of a named type in one schema captures a DEFAULT of the same name in schemas compiled later: they get other types (an ENUMERATED becomes an INTEGER) or do not load | classes/module.py:12 (never cleared), SequenceType.py:97 | `C54_captured` |
| F78 | a type that is not assigned is an error (`KeyError`) only if no earlier schema has assigned it | classes/module.py:10 (never cleared) | `C54_foreign_type` |
| F79 | a received value is refused by encode: a mandatory SEQUENCE in a group that was sent because it held an empty list arrives holding nothing, and the component after it is then out of place | from F15; encoder.py:305-322 | `C41_refused` |
| F80 | four lists in one another, `SEQUENCE OF SEQUENCE OF SEQUENCE OF SEQUENCE OF INTEGER`: the classes of the two lists in the middle have the same text, so the class of the innermost one is never emitted | SequenceOfType.py:22-28 | `C48_collapsed` |
| F81 | the grammar accepts the dash U+2013 in names; only hyphens are translated, and the module is not valid Python | lexical_items.py:11-22 (`chr(8211)`); classes/types: `replace('-', '_')` | `C55_dash` |
| F82 | a value name with a hyphen in a constraint or a DEFAULT is printed as it is, and Python reads a subtraction: with `a`, `b` and `a-b` assigned, `INTEGER (0..a-b)` ends at the difference of `a` and `b` (otherwise F49) | parse_actions.py `parse_Constraint` | `C55_difference` |
| F83 | elements that take no bits are made in any number announced, up to 65535: one octet makes a list of 255 | decoder.py:416-498 | `C56_empty_elements` |
| F84 | a field that ends too early is filled up with zeros, in front of what has been received: four octets make 800 BOOLEANs | decoder.py:624 (`zfill`) | `C56_supplied` |
| F85 | `A ::= SEQUENCE OF SEQUENCE OF SEQUENCE OF SEQUENCE OF A` is compiled to another, finite type: an element type written in place is dropped when its class looks like one in progress | SequenceOfType.py:20-28, `already_filled_template` | `C59_forgotten`, `C59_borrowed` (`Props/FindingsRecursion`) |
| F86 | recursive types cannot be used: the generated module raises NameError | files/SequenceType.txt and others name classes before they exist | `C59_linked_list` (`Props/FindingsRecursion`) |
| F87 | a message that is a CHOICE of an empty BIT STRING (`SIZE(0)`) is not returned: decode compares what it has read with `''`, finds it equal and raises TypeError | decoder.py:72-73 | `C10_empty_choice`, `C10_empty_choice_inside` (`Props/Findings`); excluded by `Spec.returnable` |
| F88 | a type in which a name occurs twice is compiled without complaint; its SEQUENCE can never be encoded, and a CHOICE whose second alternative of that name is set by position is encoded as the first one | encoder.py:402-433, templates/files/*.txt | `C63_twice_accepted`, `C63_wrong_alternative` (`Props/FindingsNames`) |
| F89 | a module named `My-Module` is written to `My-Module.py`, which `import` cannot name (hyphens in the names of types and values become underscores) | classes/module.py:28 | `C64_hyphen` (`Props/FindingsFiles`) |
| F90 | decode changes the object it is given as `asn1Spec`: a CHOICE in it drops the value it holds for the alternative of the message (also if decoding fails), components that were not set are; the objects of the classes, which all share, are changed too | decoder.py:340-389, 419, 509-575, 748 | `C65_choice_lost`, `C65_grown` (`Props/FindingsHeap`) |
| F91 | reading the components of an unset OPTIONAL SEQUENCE makes it a value if all of its components are OPTIONAL: after `to_dict()` (or `obj['o']['x']`) encode sends a component that was never set; if one has a DEFAULT and a mandatory one is unset, encode raises where it did not before. The dictionary of a CHOICE turns from `None` to `{}` | SequenceType.py:14-24, 35-47, encoder.py:243-252 | `C66_look_sent`, `C66_look_breaks`, `C66_dict_changes` (`Props/FindingsLooking`) |
| F92 | an object of a SEQUENCE type in which nothing is set and nothing is mandatory becomes a value when it is encoded as a mandatory component; where the same object is an OPTIONAL component (of the same or another object) it is then sent, where an equal copy is not; likewise after `to_dict` or reading, and `to_dict` shows a chosen alternative as `{}` instead of `None` | SequenceType.py:14-24, encoder.py:239-263 | `C67_shared_sent`, `C67_other_sent`, `C67_looked_sent`, `C67_shared_shown` (`Props/FindingsShared`), `C68_twice` (`Props/FindingsReceived`) |
| F93 | a SEQUENCE with a DEFAULT of a constructed type among its root components (`children SEQUENCE OF Child DEFAULT {}`, the example of X.691 A.1) is never encoded: `AttributeError`, whatever the value | encoder.py:257: `_value` exists for simple types only | `C08_structured_default`, `C08_annex` (`Props/FindingsDefault`) |
