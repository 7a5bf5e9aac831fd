"""Random tests of the theorems' statements on mutated models, in a scratch copy.

usage: oracle.py [ids...]     mutants come from mutants.py; results are appended to seeded/LOG.jsonl

Only the model and the specifications are needed, no proofs. `violated` lists the groups of theorems whose statements
fail on the mutated model. A mutant whose claim is false but which violates nothing points to a statement that is too weak
(or to a test that is too short).
"""
import json, os, shutil, subprocess, sys, time
sys.path.insert(0, os.path.dirname(__file__))
import mutants
ROOT = os.path.dirname(os.path.dirname(os.path.abspath(__file__)))
SCR = os.environ.get("ORACLE_DIR", "/tmp/oracle")
LOG = os.path.join(ROOT, "seeded", "LOG.jsonl")

def sync():
    """The committed project, so that work in progress does not disturb a run."""
    src = SCR + ".src"
    if not getattr(sync, "done", False):
        shutil.rmtree(src, ignore_errors=True)
        os.makedirs(src)
        tar = subprocess.run(["git", "-C", ROOT, "archive", "HEAD", "lean"], check=True, capture_output=True).stdout
        subprocess.run(["tar", "-x", "-C", src], input=tar, check=True)
        sync.done = True
    os.makedirs(SCR + "/Verif", exist_ok=True)
    for d in ("Model", "Spec", "Demo"):
        shutil.rmtree(f"{SCR}/Verif/{d}", ignore_errors=True)
        shutil.copytree(f"{src}/lean/Verif/{d}", f"{SCR}/Verif/{d}")
    for f in os.listdir(src + "/lean"):
        if os.path.isfile(f"{src}/lean/{f}"):
            shutil.copy2(f"{src}/lean/{f}", SCR)
    shutil.copy2(f"{src}/lean/Verif/Oracle.lean", SCR)

def run(mu, n, steps):
    sync()
    p = os.path.join(SCR, mu["file"])
    s = open(p).read()
    parts = s.split(mu["old"])
    if len(parts) < 2 or (len(parts) > 2 and not mu.get("nth")):
        print(mu["id"], "pattern count", len(parts) - 1)
        return
    k = mu.get("nth", 1)
    open(p, "w").write(mu["old"].join(parts[:k]) + mu["new"] + mu["old"].join(parts[k:]))
    t0 = time.time()
    mods = ["Verif.Spec.Event", "Verif.Spec.Notes", "Verif.Spec.Trace", "Verif.Spec.Config", "Verif.Spec.Fate", "Verif.Demo.Base", "Verif.Model.Factory"]
    b = subprocess.run(["lake", "build"] + mods, cwd=SCR, capture_output=True, text=True)
    if b.returncode:
        print(mu["id"], "does not build:", (b.stdout + b.stderr)[-400:])
        return
    r = subprocess.run(["lake", "env", "lean", "--run", "Oracle.lean", str(n), str(steps)], cwd=SCR, capture_output=True, text=True, timeout=3000)
    out = r.stdout + r.stderr
    bad = [l[5:] for l in out.splitlines() if l.startswith("FAIL ")]
    if not out.startswith("runs"):
        bad = ["ERROR " + out[-300:]]
    rec = dict(id=mu["id"], kind="statements on random schedules", definition=mu["definition"],
               edit=f"{mu['old'].strip()}  ==>  {mu['new'].strip()}", claim=mu["claim"], runs=n, steps=steps, violated=bad,
               seconds=round(time.time() - t0))
    with open(LOG, "a") as f:
        f.write(json.dumps(rec, ensure_ascii=False) + "\n")
    print(mu["id"], "|", mu["claim"], "|", "; ".join(bad) or "NOTHING VIOLATED", f"{rec['seconds']}s", flush=True)

if __name__ == "__main__":
    want = [a for a in sys.argv[1:]]
    done = {json.loads(l)["id"] for l in open(LOG) if "\"kind\"" in l}
    for mu in mutants.MUTANTS:
        if mu["id"] in want or (not want and mu["id"] not in done):
            run(mu, int(os.environ.get("RUNS", 300)), int(os.environ.get("STEPS", 300)))
