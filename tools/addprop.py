#!/usr/bin/env python3
"""append a property: addprop.py id title statement quantifier why anchors(;-separated)"""
import json, sys
i, t, s, q, w, a = sys.argv[1:7]
with open('/verif/properties.jsonl', 'a') as f:
    f.write(json.dumps(dict(id=i, title=t, statement=s, quantifier=q, why_tests_cant=w, anchors=a.split(';')), ensure_ascii=False) + '\n')
