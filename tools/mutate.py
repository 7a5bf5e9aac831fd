"""Mutation testing of the proofs, in a scratch copy (never in /verif/lean).

usage: mutate.py [ids...]     mutants come from mutants.py; results are appended to seeded/LOG.jsonl

For each mutant: copy the project, apply the edit, build. Proofs that fail are replaced by `sorry` (examples are removed) and
the build is repeated, until everything builds. Then the axioms of all theorems named in MANIFEST.json are printed: those
that depend on `sorryAx` are no longer proved.
"""
import json, os, re, shutil, subprocess, sys, time
sys.path.insert(0, os.path.dirname(__file__))
ROOT = os.path.dirname(os.path.dirname(os.path.abspath(__file__)))
SCR = os.environ.get("MUT_DIR", "/tmp/mut")
LOG = os.path.join(ROOT, "seeded", "LOG.jsonl")
START = re.compile(r"^(@\[[^\]]*\] )?(private |protected )?(noncomputable )?(theorem|lemma|example|def|instance|abbrev|structure|inductive)\b")
STOP = re.compile(r"^(@\[|private |protected |noncomputable |theorem|lemma|example|def |instance|abbrev|structure|inductive|end\b|namespace|section|variable|open |/-|set_option|#)")

def sync():
    """The committed project (MUT_SRC overrides), so that work in progress does not disturb a run."""
    os.makedirs(SCR, exist_ok=True)
    src = os.environ.get("MUT_SRC")
    if not src:
        src = SCR + ".src"
        if not getattr(sync, "done", False):
            shutil.rmtree(src, ignore_errors=True)
            os.makedirs(src)
            tar = subprocess.run(["git", "-C", ROOT, "archive", "HEAD", "lean", "MANIFEST.json"], check=True, capture_output=True).stdout
            subprocess.run(["tar", "-x", "-C", src], input=tar, check=True)
            sync.done = True
        src += "/lean"
    shutil.rmtree(os.path.join(SCR, "Verif"), ignore_errors=True)
    shutil.copytree(os.path.join(src, "Verif"), os.path.join(SCR, "Verif"))
    for f in os.listdir(src):
        p = os.path.join(src, f)
        if os.path.isfile(p):
            shutil.copy2(p, SCR)

def build(target=None):
    try:
        r = subprocess.run(["lake", "build"] + ([target] if target else []), cwd=SCR, capture_output=True, text=True, timeout=3000)
    except subprocess.TimeoutExpired:
        return 1, "TIMEOUT"
    return r.returncode, r.stdout + r.stderr

def chunk(lines, ln):
    s = ln
    while s >= 0 and not START.match(lines[s]):
        s -= 1
    if s < 0:
        return None
    e = s + 1
    while e < len(lines) and not STOP.match(lines[e]):
        e += 1
    return s, e

def sorrify(text):
    depth = 0
    i = 0
    while i < len(text):
        c = text[i]
        if c in "([{⟨":
            depth += 1
        elif c in ")]}⟩":
            depth -= 1
        elif depth == 0 and text.startswith(":=", i):
            return text[:i] + ":= sorry\n\n"
        elif depth == 0 and text.startswith(" where\n", i):
            return text[:i] + " := sorry\n\n"
        elif depth == 0 and re.match(r"\n  \| ", text[i:]):
            return text[:i] + " := sorry\n\n"
        i += 1
    return None

def run(mu):
    sync()
    p = os.path.join(SCR, mu["file"])
    s = open(p).read()
    if s.count(mu["old"]) < 1 or (s.count(mu["old"]) > 1 and not mu.get("nth")):
        print(mu["id"], "pattern count", s.count(mu["old"]))
        return None
    if mu.get("nth"):
        parts = s.split(mu["old"])
        n = mu["nth"]
        s = mu["old"].join(parts[:n]) + mu["new"] + mu["old"].join(parts[n:])
    else:
        s = s.replace(mu["old"], mu["new"])
    open(p, "w").write(s)
    failed, t0 = [], time.time()
    for it in range(60):
        rc, out = build()
        if rc == 0:
            break
        errs = re.findall(r"error: (\S+\.lean):(\d+):\d+: (.*)", out)
        if not errs:
            failed.append("BUILD: " + out[-300:])
            break
        todo = {}
        for f, ln, msg in errs:
            todo.setdefault(f, []).append((int(ln) - 1, msg))
        stuck = True
        for f, lns in todo.items():
            fp = os.path.join(SCR, f)
            lines = open(fp).read().split("\n")
            edits = {}
            for ln, msg in lns:
                ch = chunk(lines, ln)
                if ch:
                    edits[ch] = msg
            for (a, b) in sorted(edits, reverse=True):
                head = lines[a]
                text = "\n".join(lines[a:b]) + "\n"
                m = re.search(r"(theorem|lemma|def|instance|abbrev|example)\s*(\S*)", head)
                m = m or re.search(r"(theorem|lemma|def|instance|abbrev|example)\s+(\S*)", text)
                if m is None:
                    failed.append(f"{f}: `{head.strip()[:90]}`")
                    continue
                name = m.group(2) if m.group(1) != "example" else "example"
                if m.group(1) == "example":
                    failed.append(f"{f}: example `{text.strip()[:90]}`")
                    new = ""
                elif m.group(1) in ("theorem", "lemma") or (m.group(1) in ("def", "instance", "abbrev")):
                    if "sorry" in text and len(text) < 4000 and text.rstrip().endswith(":= sorry"):
                        failed.append(f"{f}: {name} (statement)")
                        new = ""
                    else:
                        new = sorrify(text)
                        failed.append(f"{f}: {m.group(1) + ' ' if m.group(1) != 'theorem' else ''}{name}")
                        if new is None:
                            failed.append("CANNOT EDIT " + name)
                            continue
                if new == "":
                    # drop the doc comment too
                    k = a - 1
                    while k >= 0 and lines[k].strip() == "":
                        k -= 1
                    if k >= 0 and lines[k].rstrip().endswith("-/"):
                        j = k
                        while j >= 0 and not lines[j].startswith("/-"):
                            j -= 1
                        if lines[j].startswith("/--"):
                            a = j
                    while a > 0 and re.match(r"(open|variable|set_option) .* in$", lines[a - 1]):
                        a -= 1
                stuck = False
                lines[a:b] = new.split("\n")
            open(fp, "w").write("\n".join(lines))
        if stuck:
            failed.append("STUCK: " + out[-300:])
            break
    else:
        failed.append("GAVE UP")
    lost = []
    if rc == 0:
        names = sorted({t for c in json.load(open((SCR + ".src" if not os.environ.get("MUT_SRC") else ROOT) + "/MANIFEST.json"))["claims"] for t in c["theorems"]})
        open(SCR + "/Ax.lean", "w").write("import Verif\nopen Verif\n" + "".join(f"#print axioms {n}\n" for n in names))
        r = subprocess.run(["lake", "env", "lean", "Ax.lean"], cwd=SCR, capture_output=True, text=True)
        out = r.stdout + r.stderr
        for n in names:
            m = re.search(r"'(Verif\.)?" + re.escape(n) + r"' depends on axioms: \[([^\]]*)\]", out)
            ok = re.search(r"'(Verif\.)?" + re.escape(n) + r"' does not depend", out)
            if m and "sorryAx" in m.group(2):
                lost.append(n)
            elif not m and not ok:
                lost.append(n + " (removed)")
        os.remove(SCR + "/Ax.lean")
    rec = dict(id=mu["id"], definition=mu["definition"], edit=mu["edit"] if "edit" in mu else f"{mu['old'].strip()}  ==>  {mu['new'].strip()}",
               claim=mu["claim"], breaks=mu.get("breaks", []), failed_proofs=failed, theorems_no_longer_proved=lost,
               caught=bool(lost or [x for x in failed]), tightened=mu.get("tightened", []), seconds=round(time.time() - t0))
    exp = [b for b in mu.get("breaks", []) if not any(l.removeprefix("Verif.").startswith(b) or l.split(".")[-1].startswith(b) for l in lost)]
    if exp and rc == 0:
        rec["not_caught_for"] = exp
    with open(LOG, "a") as f:
        f.write(json.dumps(rec, ensure_ascii=False) + "\n")
    print(mu["id"], "failed", len(failed), "lost", len(lost), "expected but still proved:", exp, f"{rec['seconds']}s", flush=True)
    return rec

if __name__ == "__main__":
    import mutants
    done = set()
    if os.path.exists(LOG):
        done = {json.loads(l)["id"] for l in open(LOG) if l.strip() and "\"kind\"" not in l}
    want = sys.argv[1:]
    byid = {mu["id"]: mu for mu in mutants.MUTANTS}
    for i in want or [i for i in byid if i not in done]:
        run(byid[i])
