"""Append a property: addprop.py id title statement quantifier why anchor..."""
import json, sys
a = sys.argv[1:]
with open('/verif/properties.jsonl', 'a') as f:
    f.write(json.dumps({"id": a[0], "title": a[1], "statement": a[2], "quantifier": a[3], "why_tests_cant": a[4], "anchors": a[5:]}) + '\n')
