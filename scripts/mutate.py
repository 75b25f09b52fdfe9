#!/usr/bin/env python3
"""Mutation tests of the theorems.

usage: mutate.py MUTATIONS.json [id ...]

Each mutation edits one definition of the model in a scratch copy of ../lean. The proofs that fail are replaced by
`sorry` until the project builds again; the theorems of MANIFEST.json that then depend on `sorryAx` have failed, the
others have survived. One JSON line per mutation is appended to MUTATIONS.json.out.
"""
import json, os, re, subprocess, sys, shutil, time

HERE = os.path.dirname(os.path.abspath(__file__))
SRC = os.environ.get("MUT_BASE", os.path.join(HERE, "..", "lean"))
WORK = os.environ.get("MUT_WORK", "/tmp/mut/work")
DECL = re.compile(r"^(@\[[^\]]*\]\s*)?((private|protected|noncomputable|scoped)\s+)*(theorem|lemma|example|def|instance|structure|inductive|abbrev|class)\b\s*(\S*)")
TOP = re.compile(r"^(\S)")


def decl_at(lines, ln):
    """(start, end) of the declaration around 0-based line ln."""
    s = ln
    while s >= 0 and not DECL.match(lines[s]):
        s -= 1
    if s < 0:
        return None
    e = s + 1
    while e < len(lines):
        l = lines[e]
        if l and not l[0].isspace() and not l.startswith("|") and not l.startswith(("termination_by", "decreasing_by", "·", ")", "⟩", "}", "]")):
            break
        e += 1
    return s, e


def cut_proof(text):
    """The statement of a theorem, without its proof."""
    depth = 0
    i = 0
    m = DECL.match(text)
    i = m.end()
    while i < len(text):
        if text.startswith("--", i):
            i = text.find("\n", i)
            if i < 0:
                return None
            continue
        c = text[i]
        if c in "([{⟨":
            depth += 1
        elif c in ")]}⟩":
            depth -= 1
        elif depth == 0 and text.startswith(":=", i):
            line = text[text.rfind("\n", 0, i) + 1:i]
            if not re.search(r"\blet\b[^;]*$", line):
                return text[:i]
        elif depth == 0 and text.startswith("\n  | ", i) and "∀" not in text[:i][-0:]:
            if re.match(r"\n  \| [^\n]*=>", text[i:]):
                prev = text[:i].rstrip()
                if not prev.endswith("with"):
                    return text[:i]
        i += 1
    return None


def run(cmd, cwd, timeout):
    try:
        p = subprocess.run(cmd, cwd=cwd, stdout=subprocess.PIPE, stderr=subprocess.STDOUT, timeout=timeout, text=True)
        return p.returncode, p.stdout
    except subprocess.TimeoutExpired as ex:
        subprocess.run(["pkill", "-f", WORK])
        subprocess.run(["pkill", "-x", "lean"]) if os.environ.get("MUT_PKILL") else None
        return 124, (ex.stdout or b"").decode() if isinstance(ex.stdout, bytes) else (ex.stdout or "")


CHECK = """import Verif
import Lean.Util.CollectAxioms
open Lean Elab Command
run_cmd do
  for n in [%s] do
    let ax ← liftCoreM (collectAxioms n)
    logInfo m!"THM {n} {ax.contains ``sorryAx}"
"""


def mutate(mut):
    shutil.rmtree(WORK, ignore_errors=True)
    subprocess.run(["cp", "-a", SRC, WORK], check=True)
    edits = mut.get("edits") or [[mut["file"], mut["old"], mut["new"]]]
    for f, old, new in edits:
        p = os.path.join(WORK, "Verif", f)
        s = open(p).read()
        assert s.count(old) == 1, (mut["id"], f, s.count(old), old)
        open(p, "w").write(s.replace(old, new))
    broken, deleted, fatal = [], [], []
    touched = {}
    for rnd in range(40):
        rc, out = run(["lake", "build"], WORK, 1500)
        if rc == 0:
            break
        if rc == 124:
            fatal.append("timeout")
            break
        errs = set(re.findall(r"error: (Verif/\S+?\.lean):(\d+):\d+", out))
        byfile = {}
        for f, l in errs:
            byfile.setdefault(f, set()).add(int(l) - 1)
        if not byfile:
            fatal.append(out[-800:])
            break
        for f, ls in byfile.items():
            p = os.path.join(WORK, f)
            lines = open(p).read().split("\n")
            spans = set()
            for l in ls:
                d = decl_at(lines, min(l, len(lines) - 1))
                if d is None:
                    fatal.append(f"{f}:{l}")
                else:
                    spans.add(d)
            for s, e in sorted(spans, reverse=True):
                text = "\n".join(lines[s:e])
                m = DECL.match(text)
                kind, name = m.group(4), m.group(5)
                if kind in ("theorem", "lemma"):
                    key = (f, name)
                    st = cut_proof(text)
                    if st is None or touched.get(key):
                        lines[s:e] = [""]
                        # drop a doc comment that now hangs in the air
                        lines.insert(s, "def _dropped_%d_%d : Unit := ()" % (rnd, s))
                        deleted.append(name)
                    else:
                        touched[key] = True
                        lines[s:e] = (st + ":= by sorry").split("\n") + [""]
                        broken.append(name)
                elif kind == "example":
                    lines[s:e] = ["example : True := trivial", ""]
                    broken.append("example@%s:%d" % (f, s + 1))
                else:
                    fatal.append(f"{kind} {name} in {f}: " + re.search(re.escape(f) + r":[^\n]*\n?[^\n]*", out).group(0))
            open(p, "w").write("\n".join(lines))
        if fatal:
            break
    res = dict(id=mut["id"], broken=broken, deleted=deleted, fatal=fatal)
    if not fatal:
        man = json.load(open(os.environ.get("MUT_MANIFEST", os.path.join(HERE, "..", "MANIFEST.json"))))
        thms = [t for c in man["claims"] for t in c["theorems"]]
        gone = [t for t in thms if t.split(".")[-1] in deleted]
        names = list(dict.fromkeys(t for t in thms if t not in gone))
        with open(os.path.join(WORK, "Check.lean"), "w") as fh:
            fh.write(CHECK % ", ".join("`" + t for t in names))
        rc, out = run(["lake", "env", "lean", "Check.lean"], WORK, 600)
        r = dict(re.findall(r"THM (\S+) (true|false)", out))
        if len(r) != len(names):
            res["fatal"] = ["check: " + out[-500:]]
        failed = [t for t in names if r.get(t) == "true"] + gone
        res["failed"] = sorted(failed)
        res["failed_props"] = sorted({c["property"] for c in man["claims"] if set(c["theorems"]) & set(failed)})
        res["survived_of_claim"] = {c["property"]: [t for t in c["theorems"] if t not in failed]
                                    for c in man["claims"] if c["property"] in mut.get("breaks", [])}
    return res


if __name__ == "__main__":
    muts = json.load(open(sys.argv[1]))
    only = set(sys.argv[2:])
    os.makedirs(os.path.dirname(WORK), exist_ok=True)
    for m in muts:
        if only and m["id"] not in only:
            continue
        t = time.time()
        try:
            r = mutate(m)
        except AssertionError as ex:
            r = dict(id=m["id"], fatal=["assert " + str(ex)])
        r["wall"] = round(time.time() - t)
        with open(sys.argv[1] + ".out", "a") as fh:
            fh.write(json.dumps(r, ensure_ascii=False) + "\n")
        print(m["id"], "FATAL" if r.get("fatal") else "", r.get("failed_props"), r.get("survived_of_claim"), r["wall"], flush=True)
