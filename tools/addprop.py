#!/usr/bin/env python3
"""addprop.py TITLE STATEMENT QUANTIFIER WHY ANCHOR...: appends a property to props.py."""
import sys, os
f = os.path.join(os.path.dirname(os.path.abspath(__file__)), 'props.py')
s = open(f).read()
i = s.index("with open('/verif/properties.jsonl'")
s = s[:i] + 'p(' + ','.join(__import__('json').dumps(a) for a in sys.argv[1:]) + ')\n' + s[i:]
open(f, 'w').write(s)
