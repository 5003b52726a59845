/-!
# The template files

`/repo/asn1PERser/classes/templates/files/*.txt`, line by line.
-/
namespace Verif.Templates

/-- The text of a file with these lines. -/
def lines (l : List String) : List Char := l.flatMap fun s => s.toList ++ ['\n']

/-- files/header.txt -/
def header : List Char := lines [
  "from pyasn1.type.namedtype import NamedType, NamedTypes, OptionalNamedType, DefaultedNamedType",
  "from pyasn1.type.namedval import NamedValues",
  "from asn1PERser.classes.data.builtin import *",
  "from asn1PERser.classes.types.type import AdditiveNamedTypes",
  "from asn1PERser.classes.types.constraint import MIN, MAX, NoConstraint, ExtensionMarker, SequenceOfValueSize, \\",
  "    ValueRange, SingleValue, ValueSize, ConstraintOr, ConstraintAnd",
  "",
  "",
  ""]

/-- files/IntegerType.txt -/
def integerType : List Char := lines [
  "class {{ class_name }}({{ class_type }}):",
  "{%- if constraint.lowerEndpoint and constraint.upperEndpoint and constraint.extensionMarker %}",
  "    subtypeSpec = ValueRange({{ constraint.lowerEndpoint }}, {{ constraint.upperEndpoint }}, extensionMarker=True)",
  "{%- elif constraint.lowerEndpoint and constraint.upperEndpoint %}",
  "    subtypeSpec = ValueRange({{ constraint.lowerEndpoint }}, {{ constraint.upperEndpoint }})",
  "{%- else %}",
  "    pass",
  "{%- endif %}",
  "",
  "",
  ""]

/-- files/BooleanType.txt -/
def booleanType : List Char := lines [
  "class {{ class_name }}({{ class_type }}):",
  "    pass",
  "",
  "",
  ""]

/-- files/OctetStringType.txt -/
def octetStringType : List Char := lines [
  "class {{ class_name }}({{ class_type }}):",
  "{%- if constraint.lowerEndpoint and constraint.upperEndpoint and constraint.extensionMarker %}",
  "    subtypeSpec = ValueSize({{ constraint.lowerEndpoint }}, {{ constraint.upperEndpoint }}, extensionMarker=True)",
  "{%- elif constraint.lowerEndpoint and constraint.upperEndpoint %}",
  "    subtypeSpec = ValueSize({{ constraint.lowerEndpoint }}, {{ constraint.upperEndpoint }})",
  "{%- else %}",
  "    pass",
  "{%- endif %}",
  "",
  "",
  ""]

/-- files/BitStringType.txt -/
def bitStringType : List Char := lines [
  "class {{ class_name }}({{ class_type }}):",
  "{%- if constraint.lowerEndpoint and constraint.upperEndpoint and constraint.extensionMarker %}",
  "    subtypeSpec = ValueSize({{ constraint.lowerEndpoint }}, {{ constraint.upperEndpoint }}, extensionMarker=True)",
  "{%- elif constraint.lowerEndpoint and constraint.upperEndpoint %}",
  "    subtypeSpec = ValueSize({{ constraint.lowerEndpoint }}, {{ constraint.upperEndpoint }})",
  "{%- else %}",
  "    pass",
  "{%- endif %}",
  "",
  "",
  ""]

/-- files/EnumeratedType.txt -/
def enumeratedType : List Char := lines [
  "class {{ class_name }}({{ class_type }}):",
  "{%- if extension_marker %}",
  "    subtypeSpec = ExtensionMarker(True)",
  "{%- endif %}",
  "    enumerationRoot = NamedValues(",
  "{%- for named_value in root_named_values %}",
  "        ('{{ named_value.field_name }}', {{ named_value.field_index }}),",
  "{%- endfor %}",
  "    )",
  "{%- if addition_named_values %}",
  "    extensionAddition = NamedValues(",
  "  {%- for named_value in addition_named_values %}",
  "        ('{{ named_value.field_name }}', {{ named_value.field_index }}),",
  "  {%- endfor %}",
  "    )",
  "{%- endif %}",
  "{%- if not addition_named_values %}",
  "    namedValues = enumerationRoot",
  "{%- else %}",
  "    namedValues = enumerationRoot + extensionAddition",
  "{%- endif %}",
  "",
  "",
  ""]

/-- files/SequenceOfType.txt -/
def sequenceOfType : List Char := lines [
  "class {{ class_name }}({{ class_type }}):",
  "{%- if constraint.lowerEndpoint and constraint.upperEndpoint and constraint.extensionMarker %}",
  "    subtypeSpec = SequenceOfValueSize({{ constraint.lowerEndpoint }}, {{ constraint.upperEndpoint }}, extensionMarker=True)",
  "{%- elif constraint.lowerEndpoint and constraint.upperEndpoint %}",
  "    subtypeSpec = SequenceOfValueSize({{ constraint.lowerEndpoint }}, {{ constraint.upperEndpoint }})",
  "{%- else %}",
  "{%- endif %}",
  "    componentType = {{ field_type }}()",
  "",
  "",
  ""]

/-- files/SequenceType.txt -/
def sequenceType : List Char := lines [
  "class {{ class_name }}({{ class_type }}):",
  "{%- filter indent(width=4) %}",
  "{%- for template in subtemplates %}",
  "{{ template }}",
  "{%- endfor %}",
  "{%- endfilter %}",
  "{%- if extension_marker %}",
  "    subtypeSpec = ExtensionMarker(True)",
  "{%- endif %}",
  "    rootComponent = AdditiveNamedTypes(",
  "{%- for named_type in root_named_types %}",
  "  {%- if named_type.optional %}",
  "        OptionalNamedType('{{ named_type.field_name }}', {{ named_type.field_type }}()),",
  "  {%- elif named_type.default %}",
  "    {%- if named_type.is_constant %}",
  "        DefaultedNamedType('{{ named_type.field_name }}', {{ named_type.default_value }}),",
  "    {%- else %}",
  "        DefaultedNamedType('{{ named_type.field_name }}', {{ named_type.field_type }}({{ named_type.default_value }})),",
  "    {%- endif %}",
  "  {%- else %}",
  "        NamedType('{{ named_type.field_name }}', {{ named_type.field_type }}()),",
  "  {%- endif %}",
  "{%- endfor %}",
  "    )",
  "{%- if addition_named_types %}",
  "    extensionAddition = AdditiveNamedTypes(",
  "  {%- for named_type in addition_named_types %}",
  "    {%- if named_type.optional %}",
  "        OptionalNamedType('{{ named_type.field_name }}', {{ named_type.field_type }}()),",
  "    {%- elif named_type.default %}",
  "      {%- if named_type.is_constant %}",
  "            DefaultedNamedType('{{ named_type.field_name }}', {{ named_type.default_value }}),",
  "      {%- else %}",
  "            DefaultedNamedType('{{ named_type.field_name }}', {{ named_type.field_type }}({{ named_type.default_value }})),",
  "      {%- endif %}",
  "    {%- else %}",
  "        NamedType('{{ named_type.field_name }}', {{ named_type.field_type }}()),",
  "    {%- endif %}",
  "  {%- endfor %}",
  "    )",
  "{%- endif %}",
  "{%- if extension_addition_groups %}",
  "    extensionAdditionGroups = [",
  "  {%- for extenion_addition_group in extension_addition_groups %}",
  "        AdditiveNamedTypes(",
  "    {%- for named_type in extenion_addition_group %}",
  "      {%- if named_type.optional %}",
  "            OptionalNamedType('{{ named_type.field_name }}', {{ named_type.field_type }}()),",
  "      {%- elif named_type.default %}",
  "        {%- if named_type.is_constant %}",
  "                DefaultedNamedType('{{ named_type.field_name }}', {{ named_type.default_value }}),",
  "        {%- else %}",
  "                DefaultedNamedType('{{ named_type.field_name }}', {{ named_type.field_type }}({{ named_type.default_value }})),",
  "        {%- endif %}",
  "      {%- else %}",
  "            NamedType('{{ named_type.field_name }}', {{ named_type.field_type }}()),",
  "      {%- endif %}",
  "    {%- endfor %}",
  "        ),",
  "  {%- endfor %}",
  "    ]",
  "{%- endif %}",
  "{%- if not addition_named_types and not extension_addition_groups %}",
  "    componentType = rootComponent",
  "{%- elif addition_named_types and not extension_addition_groups %}",
  "    componentType = rootComponent + extensionAddition",
  "{%- elif not addition_named_types and extension_addition_groups %}",
  "    componentType = rootComponent + extensionAdditionGroups",
  "{%- else %}",
  "    componentType = rootComponent + extensionAddition + extensionAdditionGroups",
  "{%- endif %}",
  "",
  "",
  ""]

/-- files/ChoiceType.txt -/
def choiceType : List Char := lines [
  "class {{ class_name }}({{ class_type }}):",
  "{%- filter indent(width=4) %}",
  "{%- for template in subtemplates %}",
  "{{ template }}",
  "{%- endfor %}",
  "{%- endfilter %}",
  "{%- if extension_marker %}",
  "    subtypeSpec = ExtensionMarker(True)",
  "{%- endif %}",
  "    rootComponent = AdditiveNamedTypes(",
  "{%- for named_type in root_alternatives_types %}",
  "        NamedType('{{ named_type.field_name }}', {{ named_type.field_type }}()),",
  "{%- endfor %}",
  "    )",
  "{%- if addition_alternatives_types %}",
  "    extensionAddition = AdditiveNamedTypes(",
  "  {%- for named_type in addition_alternatives_types %}",
  "        NamedType('{{ named_type.field_name }}', {{ named_type.field_type }}()),",
  "  {%- endfor %}",
  "    )",
  "{%- endif %}",
  "{%- if extension_addition_groups %}",
  "    extensionAdditionGroups = [",
  "  {%- for extenion_addition_group in extension_addition_groups %}",
  "        AdditiveNamedTypes(",
  "    {%- for named_type in extenion_addition_group %}",
  "      {%- if named_type.optional %}",
  "            OptionalNamedType('{{ named_type.field_name }}', {{ named_type.field_type }}()),",
  "      {%- elif named_type.default %}",
  "            DefaultedNamedType('{{ named_type.field_name }}', {{ named_type.field_type }}({{ named_type.default_value }})),",
  "      {%- else %}",
  "            NamedType('{{ named_type.field_name }}', {{ named_type.field_type }}()),",
  "      {%- endif %}",
  "    {%- endfor %}",
  "        ),",
  "  {%- endfor %}",
  "    ]",
  "{%- endif %}",
  "{%- if not addition_alternatives_types and not extension_addition_groups %}",
  "    componentType = rootComponent",
  "{%- elif addition_alternatives_types and not extension_addition_groups %}",
  "    componentType = rootComponent + extensionAddition",
  "{%- elif not addition_alternatives_types and extension_addition_groups %}",
  "    componentType = rootComponent + extensionAdditionGroups",
  "{%- else %}",
  "    componentType = rootComponent + extensionAddition + extensionAdditionGroups",
  "{%- endif %}",
  "",
  "",
  ""]

/-- files/simple_value.txt -/
def simpleValue : List Char := lines [
  "{{ valuereference }} = {{ class_type }}({{ value }})",
  "",
  "",
  ""]

/-- files/type_type.txt -/
def typeType : List Char := lines [
  "{{ identifier }} = {{ typereference }}",
  "",
  "",
  ""]

/-- files/DefinedType.txt -/
def definedType : List Char := lines [
  "{{ class_name }} = {{ class_type }}",
  "",
  "",
  ""]

/-- `env.get_template(name)`, creator.py:11-15 -/
def file (name : String) : Option (List Char) :=
  [("header.txt", header),
   ("IntegerType.txt", integerType),
   ("BooleanType.txt", booleanType),
   ("OctetStringType.txt", octetStringType),
   ("BitStringType.txt", bitStringType),
   ("EnumeratedType.txt", enumeratedType),
   ("SequenceOfType.txt", sequenceOfType),
   ("SequenceType.txt", sequenceType),
   ("ChoiceType.txt", choiceType),
   ("simple_value.txt", simpleValue),
   ("type_type.txt", typeType),
   ("DefinedType.txt", definedType)].lookup name

end Verif.Templates
