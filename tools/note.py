#!/usr/bin/env python3
"""note.py ID TEXT: sets the note of a claim in notes.json."""
import json, sys, os
f = os.path.join(os.path.dirname(os.path.abspath(__file__)), 'notes.json')
d = json.load(open(f))
for i, t in zip(sys.argv[1::2], sys.argv[2::2]):
    d.setdefault(i, {})['note'] = t
json.dump(d, open(f, 'w'), indent=1)
