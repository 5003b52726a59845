#!/usr/bin/env python3
"""Compare the model of the schema compiler with the expected files of the project's own tests.

    python3 tools/schemas.py NAME > /tmp/check.lean      (no NAME: list the names)
    cd lean && lake env lean /tmp/check.lean

The file evaluates `pythonOf` (Render.lean) on test/parsing/asn1_schemas/NAME.asn1 and says whether the text is, character by
character, test/parsing/asn1_python_code/NAME.py.  This is a test, not a proof, and not part of the build: half a minute to two
minutes for a schema (ComponentTypes_containing_ComponentTypes needs more than 16 GB).
"""
import os
import sys

BASE = '/repo/asn1PERser/test/parsing/'


def lines(text):
    """The text as a Lean list of lines; `Verif.Templates.lines` ends every line with a line feed."""
    text = text if text.endswith('\n') else text + '\n'
    quoted = [line.replace('\\', '\\\\').replace('"', '\\"').replace('\t', '\\t') for line in text[:-1].split('\n')]
    return '[' + ',\n   '.join('"%s"' % line for line in quoted) + ']'


def main():
    names = sorted(f[:-5] for f in os.listdir(BASE + 'asn1_schemas') if f.endswith('.asn1'))
    if len(sys.argv) < 2:
        print('\n'.join(names))
        return
    name = sys.argv[1]
    schema = open(BASE + 'asn1_schemas/' + name + '.asn1').read()
    code = open(BASE + 'asn1_python_code/' + name + '.py').read()
    print('import Verif.Render\nopen Verif Verif.Render Verif.Templates')
    print('#eval (match pythonOf (lines %s) with' % lines(schema))
    print(' | .ok (some t) => if t = lines %s then "same" else "DIFFERENT\\n" ++ String.ofList t' % lines(code))
    print(' | .ok none => "no text"\n | .error _ => "refused")')


main()
