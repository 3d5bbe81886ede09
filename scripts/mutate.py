"""Mutation testing of the theorems (task step 5).

usage: mutate.py MUTANTS.json   with a list of {"file","old","new","def","edit","claim"}.
Works on a scratch copy of lean/ in /tmp/mut.  After an edit it rebuilds; each theorem whose proof
breaks is replaced by `sorry` and the build goes on, so that at the end the property theorems
(`Cnn_...`) that depend on a broken proof can be listed.  Appends to seeded/LOG.jsonl.
"""
import json, os, re, subprocess, sys

SRC = "/verif/lean"
DST = os.environ.get("MUT_DST", "/tmp/mut/lean")
LOG = "/verif/seeded/LOG.jsonl"

def sync():
    os.makedirs(os.path.dirname(DST), exist_ok=True)
    subprocess.run(["rm", "-rf", DST], check=True)
    subprocess.run(["cp", "-a", SRC, DST], check=True)

DECL = re.compile(r"^(@\[[^\]]*\]\s*)?(private |protected |noncomputable )*(theorem|lemma|example|instance|def|structure|inductive|abbrev)\b\s*([^\s:({\[]*)")
STOP = re.compile(r"^(/--|/-!|@\[|theorem|lemma|example|instance|def|structure|inductive|abbrev|end |namespace |section|variable|open |private|protected|noncomputable|omit|attribute|set_option|end$)")

def span(lines, ln):
    """the declaration enclosing line ln (0-based): start, end (exclusive), kind, name"""
    s = ln
    while s >= 0 and not DECL.match(lines[s]):
        s -= 1
    if s < 0: return None
    m = DECL.match(lines[s])
    e = s + 1
    while e < len(lines) and not STOP.match(lines[e]):
        e += 1
    return s, e, m.group(3), m.group(4)

def sorry_out(path, ln, failed):
    lines = open(path).read().split("\n")
    sp = span(lines, ln)
    if sp is None: return False
    s, e, kind, name = sp
    failed.append(("%s:%s" % (os.path.basename(path), name or kind)))
    if kind in ("theorem", "lemma"):
        txt = "\n".join(lines[s:e])
        # the := that starts the proof: depth 0, not after let
        depth = 0; pos = None; i = 0
        while i < len(txt):
            c = txt[i]
            if c in "([{⟨": depth += 1
            elif c in ")]}⟩": depth -= 1
            elif txt.startswith(":=", i) and depth == 0:
                line_start = txt.rfind("\n", 0, i) + 1
                if not re.match(r"\s*(let|have)\b", txt[line_start:i]):
                    pos = i; break
            i += 1
        if pos is None:
            # equation-style proof
            m = re.search(r"\n\s*\|", txt)
            if not m: return False
            pos = m.start()
        new = txt[:pos].rstrip() + " := by sorry\n"
        if "by sorry" in txt and len(txt) - pos < 20: return False
        lines[s:e] = new.split("\n")
    elif kind == "example":
        lines[s:e] = ["example : True := trivial", ""]
    else:
        return False
    open(path, "w").write("\n".join(lines))
    return True

def build(target):
    r = subprocess.run(["lake", "build"] + target, cwd=DST, capture_output=True, text=True)
    errs = re.findall(r"^error: (?:\./)?(Verif/\S+\.lean):(\d+):\d+:", r.stdout + r.stderr, re.M)
    return r.returncode, errs, r.stdout + r.stderr

def run(m, targets):
    sync()
    path = os.path.join(DST, "Verif", m["file"])
    txt = open(path).read()
    if txt.count(m["old"]) < 1:
        return {"status": "edit does not apply"}
    open(path, "w").write(txt.replace(m["old"], m["new"]) if m.get("all") else txt.replace(m["old"], m["new"], 1))
    failed = []
    for it in range(60):
        rc, errs, out = build(targets)
        if rc == 0: break
        if not errs: return {"status": "build broke", "out": out[-1500:]}
        byfile = {}
        for f, l in errs: byfile.setdefault(f, set()).add(int(l) - 1)
        for f, ls in byfile.items():
            p = os.path.join(DST, f)
            lines = open(p).read().split("\n")
            starts = {}
            for l in ls:
                sp = span(lines, l)
                if sp: starts[sp[0]] = l
            for s in sorted(starts, reverse=True):
                if not sorry_out(p, starts[s], failed):
                    return {"status": "definition broke or stuck", "at": "%s:%d" % (f, starts[s] + 1), "failed": failed, "out": out[-800:]}
    else:
        return {"status": "no convergence", "failed": failed}
    chk = os.path.join(DST, "Chk.lean")
    with open(chk, "w") as f:
        for t in targets: f.write("import %s\n" % t)
        f.write('''import Lean
open Lean Elab Command

partial def visit (env : Environment) (n : Name) : StateM (NameMap Bool) Bool := do
  if let some b := (← get).find? n then return b
  if n == ``sorryAx then return true
  match env.getModuleIdxFor? n with
  | none => return false
  | some i =>
    unless (`Verif).isPrefixOf (env.header.moduleNames[i.toNat]!) do return false
    modify (·.insert n false)
    match env.find? n with
    | none => return false
    | some ci =>
      let cs := ci.type.getUsedConstants ++ (ci.value? (allowOpaque := true)).elim #[] (·.getUsedConstants)
      let mut r := false
      for c in cs do
        if ← visit env c then r := true
      modify (·.insert n r)
      return r

run_cmd do
  let env ← getEnv
  let mut st : NameMap Bool := {}
  for (m, d) in env.header.moduleNames.zip env.header.moduleData do
    if (`Verif).isPrefixOf m then
      for n in d.constNames do
        let s := match n with | .str _ s => s | _ => ""
        if s.startsWith "C" && (s.toList.getD 1 ' ').isDigit && (s.toList.getD 2 ' ').isDigit && s.contains '_' then
          let (b, st') := (visit env n).run st
          st := st'
          if b then logInfo m!"DEP {n}"
''')
    r = subprocess.run(["lake", "env", "lean", chk], cwd=DST, capture_output=True, text=True)
    dep = sorted(set(x.split(".")[-1] for x in re.findall(r"DEP (\S+)", r.stdout + r.stderr)))
    if "error" in r.stdout: print(r.stdout[:1500])
    return {"status": "ok", "failed": failed, "props": dep}

if __name__ == "__main__":
    ms = json.load(open(sys.argv[1]))
    targets = ms["targets"]
    for m in ms["mutants"]:
        res = run(m, m.get("targets", targets))
        print(json.dumps({"edit": m["edit"], **res}, ensure_ascii=False)[:1500], flush=True)
        if res["status"] == "ok":
            killed = bool(res["props"])
            with open(LOG, "a") as f:
                f.write(json.dumps({"definition": m["def"], "edit": m["edit"], "claim": m["claim"],
                    "theorems_failed": res["props"], "helper_failures": [x for x in res["failed"] if not re.search(r":C\d\d", x)],
                    "detected": killed, "theorems_tightened": m.get("tightened", [])}, ensure_ascii=False) + "\n")
