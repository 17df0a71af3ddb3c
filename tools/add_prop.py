"""Append a property to properties.jsonl: add_prop.py id title statement quantifier why anchor..."""
import json
import os
import sys

here = os.path.dirname(os.path.dirname(os.path.abspath(__file__)))
pid, title, statement, quantifier, why, *anchors = sys.argv[1:]
with open(os.path.join(here, "properties.jsonl")) as f:
    ids = [json.loads(line)["id"] for line in f if line.strip()]
assert pid not in ids
with open(os.path.join(here, "properties.jsonl"), "a") as f:
    f.write(json.dumps({"id": pid, "title": title, "statement": statement, "quantifier": quantifier,
                        "why_tests_cant": why, "anchors": anchors}) + "\n")
