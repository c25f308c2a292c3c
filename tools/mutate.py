#!/usr/bin/env python3
"""Apply edits to a scratch copy of the Lean model and record which theorems stop proving.

usage: mutate.py MUTANTS.jsonl
Each input line: {"file", "def", "old", "new", "claim", "edit"[, "tightened", "note"]}; paths relative to lean/Verif.
The scratch copy lives in $MUT_DIR (default /tmp/mut). One line per attempt is appended to
seeded/LOG.jsonl. A theorem counts as failed when it does not compile or when its proof uses (directly
or not, according to the environment of the unmodified build) a lemma that does not compile. So
"failed" says the proof broke, not by itself that the statement became false.
"""
import json, os, re, subprocess, sys

ROOT = os.path.dirname(os.path.dirname(os.path.abspath(__file__)))
MUT = os.environ.get("MUT_DIR", "/tmp/mut")
DECL = re.compile(r"^(?:@\[[^\]]*\]\s*)?(?:private |protected |noncomputable )*(theorem|lemma|def|abbrev|structure|inductive|instance|example)\b\s*([^\s:({\[]*)")

def decls(path):
    """(kind, name, first line, last line, text) of the top-level declarations."""
    lines = open(path).read().split("\n")
    out, cur, ns = [], None, []
    for n, l in enumerate(lines, 1):
        w = l.split()
        if w[:1] == ["namespace"]:
            ns.append(w[1])
        elif w[:1] == ["end"] and ns and w[1:] == [ns[-1]]:
            ns.pop()
        m = DECL.match(l)
        if m:
            name = m.group(2)
            if name.startswith("_root_."):
                name = name[len("_root_."):]
            elif name:
                name = ".".join(ns + [name])
            cur = [m.group(1), name, n, n, l]
            out.append(cur)
        elif cur:
            cur[3] = n
            cur[4] += "\n" + l
    return out

def modules(base):
    for d, _, fs in os.walk(os.path.join(base, "Verif")):
        for f in sorted(fs):
            if f.endswith(".lean"):
                yield os.path.join(d, f)

def sync(src, dst):
    """Make the sources in dst equal to those in src, touching only files that differ."""
    want = {os.path.relpath(p, src): open(p).read() for p in modules(src)}
    for f in ("Verif.lean", "lakefile.toml", "lean-toolchain", "lake-manifest.json"):
        if os.path.exists(os.path.join(src, f)):
            want[f] = open(os.path.join(src, f)).read()
    for p in list(modules(dst)):
        if os.path.relpath(p, dst) not in want:
            os.remove(p)
    for f, text in want.items():
        p = os.path.join(dst, f)
        if not os.path.exists(p) or open(p).read() != text:
            os.makedirs(os.path.dirname(p), exist_ok=True)
            open(p, "w").write(text)

DEPS = """import Verif
open Lean
#eval show CoreM Unit from do
  let env ← getEnv
  let mods := env.header.moduleNames
  let ours (n : Name) : Option Name :=
    match env.getModuleIdxFor? n with
    | some i => let m := mods[i.toNat]!; if (`Verif).isPrefixOf m then some m else none
    | none => none
  for (n, c) in env.constants.map₁.toList do
    if let some m := ours n then
      let deps := c.getUsedConstantsAsSet.toList.filter fun d => (ours d).isSome && d != n
      IO.println s!"{m}|{n}|{" ".intercalate (deps.map toString)}"
"""

def dependencies(src):
    """Names per module and the reverse dependency relation of the unmodified development."""
    f = os.path.join(MUT, "deps.lean")
    open(f, "w").write(DEPS)
    out = subprocess.run(["lake", "env", "lean", f], cwd=src,
                         capture_output=True, text=True, check=True).stdout
    by_mod, users = {}, {}
    for l in out.split("\n"):
        if l.count("|") == 2:
            mod, name, ds = l.split("|")
            by_mod.setdefault(mod, []).append(name)
            for d in ds.split():
                users.setdefault(d, set()).add(name)
    return by_mod, users

def closure(start, users):
    seen, todo = set(start), list(start)
    while todo:
        for u in users.get(todo.pop(), ()):
            if u not in seen:
                seen.add(u)
                todo.append(u)
    return seen

def main():
    src = os.environ.get("MUT_SRC", os.path.join(ROOT, "lean"))
    by_mod, users = dependencies(src)
    subprocess.run(["mkdir", "-p", os.path.join(MUT, "lean")], check=True)
    subprocess.run(["rm", "-rf", os.path.join(MUT, "lean", ".lake")], check=True)
    subprocess.run(["cp", "-r", os.path.join(src, ".lake"), os.path.join(MUT, "lean", ".lake")], check=True)
    for line in open(sys.argv[1]):
        if not line.strip():
            continue
        m = json.loads(line)
        dst = os.path.join(MUT, "lean")
        os.makedirs(dst, exist_ok=True)
        sync(src, dst)
        path = os.path.join(dst, "Verif", m["file"])
        text = open(path).read()
        if text.count(m["old"]) != 1:
            print("SKIP", m["def"], "occurrences:", text.count(m["old"]))
            continue
        open(path, "w").write(text.replace(m["old"], m["new"]))
        r = subprocess.run(["lake", "build"], cwd=dst, capture_output=True, text=True)
        out = r.stdout + r.stderr
        bad, bad_at = set(), set()
        bad_examples = 0
        model_errors = []
        table = {os.path.relpath(p, dst): decls(p) for p in modules(dst)}
        for e in re.finditer(r"^error: (Verif/\S+\.lean):(\d+):\d+", out, re.M):
            f, n = e.group(1), int(e.group(2))
            for k, name, a, b, _ in table.get(f, []):
                if a <= n <= b:
                    if k == "example":
                        bad_examples += 1
                    elif k in ("theorem", "lemma"):
                        bad.add(name)
                        bad_at.add((f, name))
                    else:
                        model_errors.append(f"{f}:{n}")
        direct = sorted({n.split(".")[-1] for n in bad})
        full = set()
        for f, name in bad_at:
            mod = f[:-5].replace("/", ".")
            full |= {n for n in by_mod.get(mod, [])
                     if n == name or (n.startswith("_private.") and n.endswith(".0." + name))}
        bad = {n.split(".")[-1] for n in closure(full, users)}
        props = sorted(b for b in bad if re.match(r"C\d+_", b))
        rec = {"definition": m["def"], "edit": m["edit"], "claim": m["claim"],
               "failed": props, "failed_lemmas": [d for d in direct if not re.match(r"C\d+_", d)],
               "failed_examples": bad_examples, "tightened": m.get("tightened", [])}
        if model_errors:
            print("MODEL DOES NOT COMPILE", m["def"], model_errors)
            continue
        if "note" in m:
            rec["note"] = m["note"]
        if props:
            print("killed", m["def"], "|", m["edit"], "->", props[:6])
        else:
            # Survivors are logged too; either a theorem is then tightened or a note says why the
            # claim still holds.
            print("SURVIVED", m["def"], m["edit"], "examples failed:", bad_examples)
            open(os.path.join(MUT, "survivors.jsonl"), "a").write(json.dumps(m) + "\n")
        open(os.path.join(ROOT, "seeded", "LOG.jsonl"), "a").write(json.dumps(rec) + "\n")
        sys.stdout.flush()

main()
