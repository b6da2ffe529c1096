#!/usr/bin/env python3
"""Writes seeded/LOG.jsonl from the results of mutate.py and refute.py.

usage: seedlog.py SCRATCH

One line per attempt: the definition edited, the edit, the claim it breaks, the theorems whose proofs failed, the evidence, and the
theorems added or tightened because of the attempt.  Evidence `statement refuted`: False was derived from the theorem in the
edited model.  `proof no longer compiles` is weaker: a proof can break although its statement still holds.
"""
import json, os, re, sys

HERE = os.path.dirname(os.path.abspath(__file__))
sys.path.insert(0, HERE)
from mutants import MUTANTS, TIGHTENED
from refutations import EQUIVALENT

def definition(root, m):
    """Name of the definition around the edit."""
    text = open(os.path.join(root, "lean", m["file"])).read()
    k = text.find(m["old"])
    if k < 0: return m["file"]
    names = re.findall(r"^(?:noncomputable |private )?(?:def|structure|inductive|instance|abbrev) ([\w.']+)", text[:k + 1 + (len(m["old"]) if m["old"].startswith("def ") else 0)], re.M)
    return m["file"] + ": " + (names[-1] if names else "?")

def rows(path):
    if not os.path.exists(path): return {}
    return {r["id"]: r for r in map(json.loads, open(path))}

def main():
    scratch, root = sys.argv[1], os.path.dirname(HERE)
    res, ref = rows(os.path.join(scratch, "results.jsonl")), rows(os.path.join(scratch, "refuted.jsonl"))
    n = 0
    with open(os.path.join(root, "seeded", "LOG.jsonl"), "w") as out:
        for m in MUTANTS:
            r = res.get(m["id"])
            if not r and not ref.get(m["id"], {}).get("refuted"): continue
            if not r: r = {"claims": m["claims"], "tainted": [t for t in ref[m["id"]]["refuted"] if not t.endswith("_exist")], "failed_lemmas": [], "modules": []}  # only the statements were tried
            equivalent = m["id"] in EQUIVALENT
            claims = m["claims"] or r["claims"]
            target = [t for t in r["tainted"] if any(t.startswith(c + "_") for c in claims)]
            other = [t for t in r["tainted"] if t not in target]
            line = {"id": m["id"], "definition": definition(root, m), "edit": {"old": m["old"], "new": m["new"]}, "bug": m["what"],
                    "claims_broken": [] if equivalent else claims, "theorems_failed": target, "other_theorems_failed": other, "lemmas_failed": r["failed_lemmas"],
                    "property_modules_rebuilt": r["modules"]}
            refuted = ref.get(m["id"], {}).get("refuted", [])
            if equivalent: line["evidence"], line["note"] = "equivalent edit: proofs follow the shape of the code, no claim is broken", EQUIVALENT[m["id"]]
            elif refuted: line["evidence"], line["statement_refuted_in_edited_model"] = "statement refuted", refuted
            else: line["evidence"] = "proof no longer compiles"
            line["theorems_tightened"] = TIGHTENED.get(m["id"], [])
            out.write(json.dumps(line, ensure_ascii=False) + "\n"); n += 1
    print(n, "lines")

if __name__ == "__main__": main()
