#!/usr/bin/env python3
"""Systematic small edits of the model, in a scratch copy: looks for edits that no theorem notices.

usage: automutate.py SCRATCH [file pattern] [--list]

SCRATCH/base as for mutate.py.  Every operator, comparison, number and boolean of the model (comments excluded) is changed once.
An edit is `killed` as soon as a declaration other than an example fails, `invalid` if the model itself does not compile,
and `survived` if all theorems still hold.  One JSON line per edit is appended to SCRATCH/auto.jsonl.
"""
import concurrent.futures, json, os, re, shutil, subprocess, sys, time

HERE = os.path.dirname(os.path.abspath(__file__))
sys.path.insert(0, HERE)
from mutate import deps, decl_at, DRIVER

OPS = [(r" < ", [" ≤ "]), (r" ≤ ", [" < "]), (r"&&", ["||"]), (r"\|\|(?!\|)", ["&&"]), (r" ∧ ", [" ∨ "]), (r" ∨ ", [" ∧ "]),
       (r" \+ (?!1\b)", [" - "]), (r" - (?!1\b)", [" + "]), (r" \+ 1\b", ["", " + 2"]), (r" - 1\b", ["", " - 2"]), (r" \* ", [" + "]), (r" / ", [" * "]),
       (r"\btrue\b", ["false"]), (r"\bfalse\b", ["true"]), (r"\.reverse\b", [""]), (r" ≠ ", [" = "]), (r" = (?=.* then)", [" ≠ "]),
       (r" ++ \[", None), (r"(?<![\w.#'])0(?![\w.])", ["1"]), (r"(?<![\w.#'+-])(?<!\+ )(?<!- )1(?![\w.])", ["0", "2"]),
       (r"(?<![\w.#'])([2-9]|\d\d+)(?![\w.])", ["N"]), (r"if (?=[^¬])", ["NOT"])]
OPS = [o for o in OPS if o[1]]

def code_mask(s):
    """True for characters outside comments."""
    mask, i, depth = [True] * len(s), 0, 0
    while i < len(s):
        if s.startswith("/-", i): depth += 1
        if depth:
            mask[i] = False
            if s.startswith("-/", i):
                depth -= 1; mask[i + 1] = False; i += 1
        elif s.startswith("--", i):
            while i < len(s) and s[i] != "\n": mask[i] = False; i += 1
            continue
        i += 1
    return mask

def mutants(root, pat):
    out = []
    d = os.path.join(root, "Verif/Model")
    for f in sorted(os.listdir(d)):
        if not re.search(pat, f): continue
        s = open(os.path.join(d, f)).read()
        mask, seen = code_mask(s), set()
        for op, reps in OPS:
            for m in re.finditer(op, s):
                if not mask[m.start()] or m.start() in seen and op.startswith("if"): continue
                line = s.count("\n", 0, m.start()) + 1
                text = s.split("\n")[line - 1]
                if re.match(r"(import|namespace|open|variable|end|set_option|deriving)\b", text): continue
                for r in reps:
                    a, b = m.start(), m.end()
                    if r == "N": new = str(int(m.group(1)) + 1)
                    elif r == "NOT":
                        e = s.find(" then", b)
                        if e < 0 or "\n" in s[b:e]: continue
                        new = "if ¬(" + s[b:e] + ")"; b = e
                    else: new = r
                    t = s[:a] + new + s[b:]
                    out.append({"id": "%s:%d:%d:%s" % (f[:-5], line, a - s.rfind("\n", 0, a), new.strip()[:12]), "file": "Verif/Model/" + f, "text": t,
                                "decl": decl_at(s, line), "old_line": text.strip(), "new_line": t.split("\n")[line - 1].strip()})
    return out

def topo(d, mods):
    order, seen = [], set()
    def go(k):
        if k in seen: return
        seen.add(k)
        for x in d[k]: go(x)
        order.append(k)
    for k in sorted(mods): go(k)
    return [k for k in order if k in mods]

def run(scratch, m, n, env):
    base, w = os.path.join(scratch, "base"), os.path.join(scratch, "auto_%d" % n)
    shutil.rmtree(w, ignore_errors=True)
    subprocess.run(["cp", "-al", base, w], check=True)
    p = os.path.join(w, m["file"])
    os.unlink(p)
    open(p, "w").write(m["text"])
    d = deps(w)
    start = m["file"][:-5].replace("/", ".")
    dirty, change = {start}, True
    while change:
        change = False
        for k, v in d.items():
            if k not in dirty and any(x in dirty for x in v):
                dirty.add(k); change = True
    env = dict(env, LEAN_PATH=env["LEAN_PATH"].replace(base, w))
    t0, status, where, examples = time.time(), "survived", None, []
    for mod in topo(d, dirty):
        src = mod.replace(".", "/") + ".lean"
        out = os.path.join(w, ".lake/build/lib/lean", mod.replace(".", "/") + ".olean")
        if os.path.exists(out): os.unlink(out)
        try:
            r = subprocess.run(["lean", "--run", os.path.join(scratch, "driver.lean"), mod, src, out], cwd=w, env=env, capture_output=True, text=True, timeout=900)
        except subprocess.TimeoutExpired:
            status, where = "killed", mod + ":timeout"; break
        text = open(os.path.join(w, src)).read()
        names = [decl_at(text, int(x)) for x in re.findall(r"^ERR .*?:(\d+): ", r.stdout, re.M)]
        bad = [x for x in names if not x.startswith("example")]
        examples += [mod + ":" + x for x in names if x.startswith("example")]
        if r.returncode: bad.append("crash")
        if bad:
            status, where = ("invalid" if ".Model." in mod else "killed"), mod + ":" + bad[0]
            break
    shutil.rmtree(w)
    res = {k: m[k] for k in ("id", "decl", "old_line", "new_line")}
    res.update(status=status, where=where, examples=examples, wall=round(time.time() - t0))
    with open(os.path.join(scratch, "auto.jsonl"), "a") as f: f.write(json.dumps(res, ensure_ascii=False) + "\n")
    return res

def main():
    args = [a for a in sys.argv[1:] if not a.startswith("--")]
    scratch, pat = args[0], args[1] if len(args) > 1 else "."
    base = os.path.join(scratch, "base")
    ms = mutants(base, pat)
    done = set()
    if os.path.exists(os.path.join(scratch, "auto.jsonl")):
        done = {json.loads(l)["id"] for l in open(os.path.join(scratch, "auto.jsonl"))}
    ms = [m for m in ms if m["id"] not in done]
    if "--list" in sys.argv:
        for m in ms: print(m["id"], "|", m["old_line"], "->", m["new_line"])
        print(len(ms)); return
    open(os.path.join(scratch, "driver.lean"), "w").write(DRIVER)
    env = dict(os.environ)
    env["LEAN_PATH"] = subprocess.run(["lake", "env", "printenv", "LEAN_PATH"], cwd=base, capture_output=True, text=True).stdout.strip()
    with concurrent.futures.ThreadPoolExecutor(int(os.environ.get("JOBS", "3"))) as ex:
        for r in ex.map(lambda p: run(scratch, p[1], p[0], env), enumerate(ms)):
            if r["status"] != "invalid": print(r["status"], r["id"], r["decl"], r["where"], r["wall"], flush=True)

if __name__ == "__main__": main()
