#!/usr/bin/env python3
"""Checks that the statements (not only the proofs) exclude wrong programs, in a scratch copy.

usage: refute.py SCRATCH [id ...] [--keep] [--again]

For every mutant of tools/mutants.py with a `refute` snippet the edited model is elaborated together with the statements of all
theorems (tactic blocks outside Verif/Model and Verif/Spec are replaced by sorry).  The snippet must then derive False from one of the theorems:
the statement is false of the edited model.  The theorems it rests on are collected from the proof term: only property
theorems (named C..) of the edited copy may be among them, no lemma whose proof was skipped.  One JSON line per mutant is appended to SCRATCH/refuted.jsonl.
SCRATCH/base as for mutate.py.
"""
import concurrent.futures, json, os, re, shutil, subprocess, sys, time

HERE = os.path.dirname(os.path.abspath(__file__))
sys.path.insert(0, HERE)
from mutate import deps
from refutations import PRELUDE

DRIVER = r'''
import Lean
open Lean Elab

unsafe def main (args : List String) : IO UInt32 := do
  match args with
  | [modName, file, out, skip] =>
    initSearchPath (← findSysroot)
    enableInitializersExecution
    let input ← IO.FS.readFile file
    let inputCtx := Parser.mkInputContext input file
    let (header, parserState, messages) ← Parser.parseHeader inputCtx
    let opts : Options := if skip == "skip" then ({} : Options).setBool `debug.byAsSorry true else {}
    let (env, messages) ← processHeader header opts messages inputCtx (mainModule := modName.toName)
    let s ← IO.processCommands inputCtx parserState (Command.mkState env messages opts)
    for m in s.commandState.messages.toList do
      if m.severity == .error then
        let t ← m.data.toString
        IO.println s!"ERR {m.fileName}:{m.pos.line}: {(t.splitOn "\n").head!}"
    writeModule s.commandState.env out
    return 0
  | _ => return 1
'''

TRACE = r'''
open Lean Elab Command in
run_cmd do
  let env ← getEnv
  let ours (n : Name) := match env.getModuleIdxFor? n with
    | some i => (`Verif.Props).isPrefixOf env.header.moduleNames[i]! || (`Verif.Proofs).isPrefixOf env.header.moduleNames[i]!
    | none => false
  let mut todo := #[`refuted]
  let mut seen : NameSet := {}
  let mut found := #[]
  while !todo.isEmpty do
    let n := todo.back!
    todo := todo.pop
    if seen.contains n then continue
    seen := seen.insert n
    if n == ``sorryAx then found := found.push n
    match env.find? n with
    | some (.thmInfo t) =>
      todo := todo ++ t.type.getUsedConstants
      if ours n then found := found.push n else todo := todo ++ t.value.getUsedConstants
    | some c => todo := todo ++ c.type.getUsedConstants ++ (c.value?.map (·.getUsedConstants)).getD #[]
    | none => pure ()
  logInfo m!"RESTS ON {found.toList}"
'''

def apply(w, m):
    p = os.path.join(w, m["file"])
    s = open(p).read()
    assert s.count(m["old"]) == 1, (m["id"], s.count(m["old"]))
    os.unlink(p)
    open(p, "w").write(s.replace(m["old"], m["new"]))

def imports(snippet, d, root):
    """Property modules of the theorems used in a snippet."""
    names = set(re.findall(r"\bC\d+_\w+", snippet))
    mods = []
    for k in d:
        if k.startswith("Verif.Props."):
            text = open(os.path.join(root, k.replace(".", "/") + ".lean")).read()
            if any(re.search(r"^theorem %s\b" % n, text, re.M) for n in names): mods.append(k)
    return sorted(mods) + re.findall(r"^import (\S+)", snippet, re.M)

def run(scratch, m, keep=False, again=False):
    base, w = os.path.join(scratch, "base"), os.path.join(scratch, "ref_" + m["id"])
    again = again and os.path.exists(w)
    if not again:
        shutil.rmtree(w, ignore_errors=True)
        subprocess.run(["cp", "-al", base, w], check=True)
        if m["old"] != m["new"]: apply(w, m)
    d = deps(w)
    start = m["file"][:-5].replace("/", ".")
    dirty, change = {start}, True
    while change:
        change = False
        for k, v in d.items():
            if k not in dirty and any(x in dirty for x in v):
                dirty.add(k); change = True
    imps = imports(m["refute"], d, w)
    need, todo = set(), [x for x in imps if x in d]
    while todo:
        k = todo.pop()
        if k not in need:
            need.add(k); todo += d[k]
    dirty = dirty & need if not again else set()
    env = dict(os.environ)
    env["LEAN_PATH"] = subprocess.run(["lake", "env", "printenv", "LEAN_PATH"], cwd=w, capture_output=True, text=True).stdout.strip()
    driver = os.path.join(scratch, "refdriver.lean")
    done, t0, errors = set(), time.time(), []

    def build(mod):
        src = mod.replace(".", "/") + ".lean"
        out = os.path.join(w, ".lake/build/lib/lean", mod.replace(".", "/") + ".olean")
        if os.path.exists(out): os.unlink(out)
        r = subprocess.run(["lean", "--run", driver, mod, src, out, "keep" if mod.startswith(("Verif.Model", "Verif.Spec")) else "skip"], cwd=w, env=env, capture_output=True, text=True, timeout=1500)
        if r.returncode: return ["crash " + mod + r.stderr[-300:]]
        return [l for l in r.stdout.split("\n") if l.startswith("ERR")] if mod.startswith("Verif.Model") or mod.startswith("Verif.Spec") else []

    with concurrent.futures.ThreadPoolExecutor(int(os.environ.get("JOBS", "3"))) as ex:
        pend = {}
        while len(done) < len(dirty):
            for k in sorted(dirty):
                if k not in done and k not in pend and all(x in done or x not in dirty for x in d[k]):
                    pend[k] = ex.submit(build, k)
            concurrent.futures.wait(pend.values(), return_when=concurrent.futures.FIRST_COMPLETED)
            for k in [k for k, f in pend.items() if f.done()]:
                errors += pend.pop(k).result(); done.add(k)
    f = os.path.join(w, "Refute.lean")
    body = re.sub(r"^import .*\n", "", m["refute"], flags=re.M)
    open(f, "w").write("\n".join("import " + x for x in imps) + "\nimport Mathlib.Tactic.FinCases\nimport Verif.Spec.Parse\nimport Lean\nopen VGram Props Spec\n" + PRELUDE +
        body.replace("example : False :=", "theorem refuted : False :=") + "\n" + TRACE)
    e = subprocess.run(["lean", "Refute.lean"], cwd=w, env=env, capture_output=True, text=True)
    out = "\n".join(l for l in e.stdout.split("\n") if "declaration uses" not in l).strip()
    rests = re.findall(r"RESTS ON \[(.*?)\]", out, re.S)
    names = [x.strip() for x in rests[0].split(",")] if rests else []
    ok = e.returncode == 0 and "error" not in out and bool(names) and all(re.fullmatch(r"VGram\.Props\.C\d+_\w+", x) for x in names)
    res = {"id": m["id"], "refuted": sorted(x.split(".")[-1] for x in names) if ok else [], "ok": ok, "output": out[:3000], "model_errors": errors, "modules": len(dirty), "wall": round(time.time() - t0)}
    with open(os.path.join(scratch, "refuted.jsonl"), "a") as g: g.write(json.dumps(res) + "\n")
    if not keep: shutil.rmtree(w)
    return res

def main():
    from mutants import MUTANTS
    from refutations import REFUTE
    scratch, ids = sys.argv[1], sys.argv[2:]
    open(os.path.join(scratch, "refdriver.lean"), "w").write(DRIVER)
    for m in MUTANTS:
        if (ids and m["id"] not in ids) or m["id"] not in REFUTE: continue
        m = dict(m, refute=REFUTE[m["id"]])
        r = run(scratch, m, keep="--keep" in sys.argv, again="--again" in sys.argv)
        print(m["id"], "REFUTED" if r["ok"] else "NOT REFUTED", r["wall"], r["modules"], r["model_errors"], r["output"][:1500], flush=True)

if __name__ == "__main__": main()
