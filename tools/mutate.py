#!/usr/bin/env python3
"""Tests the theorems against wrong programs.

usage: mutate.py [--rerun] MUTANTS.json

MUTANTS.json is a list of {"file", "old", "new", "def", "claim", "breaks": ["C01", ...]}. Each mutant is applied to a
scratch copy of lean/ in /tmp/mut, everything is rebuilt, every proof that no longer compiles is replaced by
`sorry` (in the scratch copy) so that the build can go on, and finally the property theorems of MANIFEST.json
which no longer hold are found by `#print axioms`. One JSON line per mutant is appended to seeded/LOG.jsonl;
with --rerun, the results replace those of the same edit in seeded/LOG.jsonl, if it is there.
"""
import fcntl, json, os, re, subprocess, sys, shutil, datetime
ROOT = os.path.dirname(os.path.dirname(os.path.abspath(__file__)))
MUT = "/tmp/mut"
LOCK = open("/tmp/mut.lock", "w")
fcntl.flock(LOCK, fcntl.LOCK_EX)  # one run at a time

def sh(cmd, **kw):
    return subprocess.run(cmd, shell=True, stdout=subprocess.PIPE, stderr=subprocess.STDOUT, text=True, **kw).stdout

TOP = re.compile(r"^(?:@\[[^\]]*\]\s*)?(?:private |protected |noncomputable )*(theorem|lemma|example|def|structure|inductive|instance|abbrev|end|namespace|open|section|mutual|/--|/-!|local|macro|attribute|variable|omit|include|set_option|universe|@\[)", re.M)

def declaration(s, line):
    """The declaration around `line`, as positions in `s`."""
    offs = [0]
    for l in s.split("\n"):
        offs.append(offs[-1] + len(l) + 1)
    pos = offs[line - 1]
    starts = [0] + [m.start() for m in TOP.finditer(s)] + [len(s)]
    return max(x for x in starts if x <= pos), min(x for x in starts if x > pos)

def sorried(decl):
    """The name of a theorem and its statement with `sorry` for its proof; None if it is not a theorem, or has no other proof."""
    m = re.match(r"(?:@\[[^\]]*\]\s*)?(?:private |protected )*(theorem|lemma|example)\s*(\S*)", decl)
    if not m:
        return None
    name = m.group(2) if m.group(1) != "example" else "example"
    depth, i, cut = 0, 0, None
    while i < len(decl):
        ch = decl[i]
        lit = re.match(r'[bc]!"(?:[^"\\]|\\.)*"', decl[i:])
        if lit:
            i += lit.end(); continue
        if ch in "([{⟨": depth += 1
        elif ch in ")]}⟩": depth -= 1
        elif depth == 0 and decl.startswith(":=", i):
            line = decl[decl.rfind("\n", 0, i) + 1:i]
            if not re.match(r"\s+(let|have) ", line) and not re.search(r"[(;] *let [^;]*$", line):
                cut = i; break
        elif depth == 0 and decl.startswith(" where\n", i):
            cut = i; break
        elif depth == 0 and decl.startswith("\n  | ", i) and not re.search(r"match .* with$", decl[:i]) :
            cut = i; break
        i += 1
    if cut is None:
        return None
    new = decl[:cut].rstrip() + " := by sorry\n\n"
    return None if new == decl else (name, new)

def sorry_out(path, lines):
    """Replaces the proofs of the theorems around `lines`; returns their names, or a line that is not in one."""
    s = open(path).read()
    decls = {}
    for l in lines:
        if l <= s.count("\n"):
            decls.setdefault(declaration(s, l), l)
    names, bad = [], None
    for (a, b), l in sorted(decls.items(), reverse=True):
        r = sorried(s[a:b])
        if r is None:
            bad = l; continue
        names.append(r[0])
        s = s[:a] + r[1] + s[b:]
    open(path, "w").write(s)
    # what is not in a proof may be a consequence of what is
    return names, (bad if not names else None)

def run(m):
    # the last commit, so that work in progress does not matter
    sh("mkdir -p %s && rm -rf %s/Verif %s/Verif.lean && git -C %s archive HEAD lean | tar -x --strip-components=1 -C %s" % (MUT, MUT, MUT, ROOT, MUT))
    if not os.path.exists(MUT + "/.lake"):
        sh("cp -r %s/lean/.lake %s/.lake" % (ROOT, MUT))
    p = os.path.join(MUT, m["file"])
    s = open(p).read()
    if s.count(m["old"]) != 1:
        return {"error": "pattern occurs %d times" % s.count(m["old"])}
    open(p, "w").write(s.replace(m["old"], m["new"]))
    failed = []
    for it in range(60):
        out = sh("lake build 2>&1", cwd=MUT, timeout=3000)
        errs = re.findall(r"^error: (Verif/\S+\.lean):(\d+):\d+:", out, re.M)
        errs = sorted(set((f, int(l)) for f, l in errs), reverse=True)
        if not errs:
            if "Build completed successfully" in out:
                break
            return {"error": out[-2000:]}
        bad, some = None, False
        for f in dict.fromkeys(f for f, _ in errs):
            names, l = sorry_out(os.path.join(MUT, f), [l for g, l in errs if g == f])
            failed += names
            some = some or bool(names)
            if l is not None:
                bad = (f, l)
        if not some:
            return {"error": "%s:%d is not in a proof\n%s" % ((bad or errs[0]) + ("\n".join(re.findall("^error.*", out, re.M)),))}
    else:
        return {"error": "no fixed point"}
    man = json.load(open(ROOT + "/MANIFEST.json"))["claims"]
    thms = [(c["property"], t) for c in man for t in c["theorems"]]
    open(MUT + "/Chk.lean", "w").write("import Verif\n" + "".join("#print axioms %s\n" % t for _, t in thms))
    out = sh("lake env lean Chk.lean", cwd=MUT)
    os.remove(MUT + "/Chk.lean")
    bad = [b for b in re.findall(r"'([^']+)' depends on axioms: \[[^\]]*sorryAx", out)]
    return {"helpers": failed, "failed": [t for t in dict.fromkeys(t for _, t in thms) if t in bad],
            "claims": sorted(set(c for c, t in thms if t in bad))}

RERUN = "--rerun" in sys.argv
LOG = ROOT + "/seeded/LOG.jsonl"
for m in json.load(open(sys.argv[-1])):
    r = run(m)
    if "error" in r:
        print("ERROR", m.get("def"), r["error"][:600], flush=True); continue
    log = {"time": datetime.datetime.utcnow().isoformat(timespec="seconds"), "definition": m["def"], "edit": "%s => %s" % (m["old"].strip(), m["new"].strip()),
           "breaks": m["claim"], "expected": m["breaks"], "failed": r["failed"], "failed_helpers": r["helpers"], "tightened": m.get("tightened", [])}
    missed = [b for b in m["breaks"] if b not in r["claims"]]
    if missed: log["survived"] = missed
    print(m["def"], "broken claims:", r["claims"], "missed:", missed, flush=True)
    lines = [json.loads(l) for l in open(LOG)]
    same = [i for i, l in enumerate(lines) if l.get("edit") == log["edit"] and l.get("definition") == log["definition"]]
    if RERUN and same:
        old = lines[same[-1]]
        log["tightened"] = old.get("tightened", []) or log["tightened"]
        log["rerun_of"] = old.get("rerun_of", old.get("time"))
        lines[same[-1]] = log
    else:
        lines.append(log)
    with open(LOG, "w") as f:
        f.write("".join(json.dumps(l, ensure_ascii=False) + "\n" for l in lines))
