#!/usr/bin/env python3
"""Runs wrong programs against the theorems, in a scratch copy.

usage: mutate.py SCRATCH [id ...]

SCRATCH must hold a copy of /verif/lean with its build output in SCRATCH/base.  For every mutant of tools/mutants.py the
edited model and all modules depending on it are elaborated again, keeping theorems whose proofs fail as unproved ones, and the theorems of
VGram.Props that depend on an unproved one are listed.  One JSON line per mutant is appended to SCRATCH/results.jsonl.
"""
import concurrent.futures, json, os, re, shutil, subprocess, sys, time

HERE = os.path.dirname(os.path.abspath(__file__))
sys.path.insert(0, HERE)

DRIVER = r'''
import Lean
open Lean Elab

def errs (log : MessageLog) : IO Unit := do
  for m in log.toList do
    if m.severity == .error then
      let s ← m.data.toString
      IO.println s!"ERR {m.fileName}:{m.pos.line}: {(s.splitOn "\n").head!}"

partial def taint (env : Environment) (n : Name) : StateM (Std.HashMap Name Bool) Bool := do
  if n == ``sorryAx then return true
  if let some b := (← get)[n]? then return b
  modify (·.insert n false)
  let some c := env.find? n | return false
  let mut r := false
  let isV := match env.getModuleIdxFor? n with
    | some i => (`Verif).isPrefixOf (env.header.moduleNames[i.toNat]!)
    | none => false
  if !isV then return false
  for d in c.type.getUsedConstants do
    if ← taint env d then r := true
  if let some v := c.value? (allowOpaque := true) then
    for d in v.getUsedConstants do
      if ← taint env d then r := true
  modify (·.insert n r)
  return r

unsafe def main (args : List String) : IO UInt32 := do
  match args with
  | "check" :: mods =>
    initSearchPath (← findSysroot)
    enableInitializersExecution
    let env ← importModules (mods.toArray.map fun m => {module := m.toName}) {} (loadExts := false)
    let names := env.constants.fold (init := #[]) fun acc n c =>
      if (`VGram.Props).isPrefixOf n && !n.isInternal && (match c with | .thmInfo _ => true | _ => false) then acc.push n else acc
    let mut st : Std.HashMap Name Bool := {}
    for x in names do
      let (b, st') := (taint env x).run st
      st := st'
      if b then IO.println s!"TAINTED {x}"
    IO.println s!"TOTAL {names.size}"
    return 0
  | [modName, file, out] =>
    initSearchPath (← findSysroot)
    enableInitializersExecution
    let input ← IO.FS.readFile file
    let inputCtx := Parser.mkInputContext input file
    let (header, parserState, messages) ← Parser.parseHeader inputCtx
    let (env, messages) ← processHeader header {} messages inputCtx (mainModule := modName.toName)
    let s ← IO.processCommands inputCtx parserState (Command.mkState env messages {})
    errs s.commandState.messages
    writeModule s.commandState.env out
    return 0
  | _ => return 1
'''

def deps(root):
    d = {}
    for dp, _, fs in os.walk(os.path.join(root, "Verif")):
        for f in fs:
            if f.endswith(".lean"):
                p = os.path.join(dp, f)
                mod = os.path.relpath(p, root)[:-5].replace("/", ".")
                d[mod] = re.findall(r"^import (Verif\S*)", open(p).read(), re.M)
    d.pop("Verif.Props.Axioms", None)
    return d

def decl_at(text, line):
    """Name of the declaration around a line."""
    name = "?"
    for i, l in enumerate(text.split("\n")[:line], 1):
        m = re.match(r"(?:@\[.*\] )?(?:private |protected |noncomputable )*(theorem|def|instance|example|structure|inductive|lemma)\b\s*([\w.'₁₂]*)", l)
        if m:
            name = m.group(2) if m.group(1) != "example" else "example:%d" % i
    return name

def run(scratch, m):
    base, w = os.path.join(scratch, "base"), os.path.join(scratch, "work_" + m["id"])
    shutil.rmtree(w, ignore_errors=True)
    subprocess.run(["cp", "-al", base, w], check=True)
    p = os.path.join(w, m["file"])
    s = open(p).read()
    assert s.count(m["old"]) == 1, (m["id"], s.count(m["old"]))
    os.unlink(p)
    open(p, "w").write(s.replace(m["old"], m["new"]))
    d = deps(w)
    start = m["file"][:-5].replace("/", ".")
    dirty, change = {start}, True
    while change:
        change = False
        for k, v in d.items():
            if k not in dirty and any(x in dirty for x in v):
                dirty.add(k); change = True
    # only what the theorems of the claims need
    props = [k for k in d if k.startswith("Verif.Props.")]
    if m["claims"]:
        props = [k for k in props if any(re.search(r"theorem %s_" % c, open(os.path.join(w, k.replace(".", "/") + ".lean")).read()) for c in m["claims"])]
    need, todo = set(), list(props) + ["Verif.Spec.Env", "Verif.Model.Builder"]
    while todo:
        k = todo.pop()
        if k not in need:
            need.add(k); todo += d[k]
    dirty &= need
    env = dict(os.environ)
    env["LEAN_PATH"] = subprocess.run(["lake", "env", "printenv", "LEAN_PATH"], cwd=w, capture_output=True, text=True).stdout.strip()
    driver = os.path.join(scratch, "driver.lean")
    errors, done, t0 = [], set(), time.time()

    def build(mod):
        src = mod.replace(".", "/") + ".lean"
        out = os.path.join(w, ".lake/build/lib/lean", mod.replace(".", "/") + ".olean")
        if os.path.exists(out): os.unlink(out)
        r = subprocess.run(["lean", "--run", driver, mod, src, out], cwd=w, env=env, capture_output=True, text=True, timeout=1500)
        text = open(os.path.join(w, src)).read()
        es = []
        for l in r.stdout.split("\n"):
            x = re.match(r"ERR (.*?):(\d+): (.*)", l)
            if x: es.append((mod, decl_at(text, int(x.group(2))), x.group(3)[:100]))
        if r.returncode: es.append((mod, "crash", r.stderr[-300:]))
        return es

    with concurrent.futures.ThreadPoolExecutor(int(os.environ.get("JOBS", "2"))) as ex:
        pend = {}
        while len(done) < len(dirty):
            for k in sorted(dirty):
                if k not in done and k not in pend and all(x in done or x not in dirty for x in d[k]):
                    pend[k] = ex.submit(build, k)
            concurrent.futures.wait(pend.values(), return_when=concurrent.futures.FIRST_COMPLETED)
            for k in [k for k, f in pend.items() if f.done()]:
                errors += pend.pop(k).result(); done.add(k)
    r = subprocess.run(["lean", "--run", driver, "check"] + props, cwd=w, env=env, capture_output=True, text=True)
    tainted = sorted(x.replace("VGram.Props.", "") for x in re.findall(r"TAINTED (\S+)", r.stdout))
    ev = None
    if m.get("evidence"):
        f = os.path.join(w, "Evidence.lean")
        open(f, "w").write("\n".join("import " + x for x in props + ["Verif.Spec.Env", "Verif.Model.Builder"]) + "\nopen VGram Props Spec\n" + re.sub(r"\bquickEnv\b", "(Ext.env Rat fun x => (x - 1) / 10000)", m["evidence"]) + "\n")
        e = subprocess.run(["lean", "Evidence.lean"], cwd=w, env=env, capture_output=True, text=True)
        ev = e.stdout.strip()[:2000] or "accepted"
    res = {"id": m["id"], "claims": m["claims"], "modules": sorted(x.replace("Verif.", "") for x in props), "failed_lemmas": sorted({"%s:%s" % (a.replace("Verif.", ""), b) for a, b, _ in errors}),
           "crash": [c for _, b, c in errors if b == "crash"], "tainted": [x for x in tainted if re.match(r"C\d+", x)], "n_tainted": len(tainted),
           "check": r.stdout.strip().split("\n")[-1] + r.stderr[-200:], "evidence": ev, "wall": round(time.time() - t0)}
    with open(os.path.join(scratch, "results.jsonl"), "a") as f: f.write(json.dumps(res) + "\n")
    shutil.rmtree(w)
    return res

def main():
    from mutants import MUTANTS
    scratch, ids = sys.argv[1], sys.argv[2:]
    open(os.path.join(scratch, "driver.lean"), "w").write(DRIVER)
    for m in MUTANTS:
        if ids and m["id"] not in ids: continue
        r = run(scratch, m)
        hit = {c: [t for t in r["tainted"] if t.startswith(c)] for c in m["claims"]}
        print(m["id"], r["wall"], hit, r["check"], "evidence:", (r["evidence"] or "")[:300], flush=True)

if __name__ == "__main__": main()
