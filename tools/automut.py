"""Systematic single-token edits of the model, in a scratch copy; looks for edits that no proof notices.

usage: automut.py list | automut.py run SEED COUNT [FILE…]     results are appended to /tmp/automut.jsonl, survivors also to seeded/LOG.jsonl

An edit that leaves the whole project building is a survivor: either it is equivalent, or it changes something no theorem is about.
"""
import json, os, random, re, subprocess, sys, time
sys.path.insert(0, os.path.dirname(__file__))
os.environ.setdefault("MUT_DIR", "/tmp/automut")
import mutate
OUT = "/tmp/automut.jsonl"
BASE = os.environ.get("MUT_BASE", "Model")     # or Spec: there a field of a structure may also be dropped

RULES = [
    (r"\btrue\b", "false"), (r"\bfalse\b", "true"),
    (r" && ", " || "), (r" \|\| ", " && "), (r" ∧ ", " ∨ "), (r" ∨ ", " ∧ "),
    (r" == ", " != "), (r" != ", " == "), (r" ≠ ", " = "),
    (r" < ", " ≤ "), (r" ≤ ", " < "), (r" > ", " ≥ "), (r" ≥ ", " > "),
    (r"(?<![\w.])0(?![\w.])", "1"), (r"(?<![\w.])1(?![\w.])", "0"), (r"(?<![\w.])1(?![\w.])", "2"), (r" \+ 1\b", ""), (r" - 1\b", ""),
    (r"\bif (\S+) then", r"if ¬ (\1) then"), (r"\bif (\S+ = \S+) then", r"if ¬ (\1) then"),
    (r"\.reverse\b", ""), (r"\.tail\b", ""), (r" \+\+ \[[^\]]*\]", ""), (r"(\S+) \+\+ \[([^\]]*)\]", r"[\2] ++ \1"),
    (r"\.all\b", ".any"), (r"\.any\b", ".all"), (r"\.head\?", ".getLast?"),
    (r"\bsome \w+\b", "none"), (r"\.ok\b \(\)", ".error .npe"),
    (r"\(!(\S+)\)", r"(\1)"), (r"\bnot \(", "id ("), (r"!(?=[\w(])", ""),
    (r", \w+ := [^,}\n]*(?=[,}])", ""), (r" \w+ := [^,}\n]*, ", " "),
    (r"\((\w+) (\w+) (\w+)\)", r"(\1 \3 \2)"),
    (r"\.isSome\b", ".isNone"), (r"\.isNone\b", ".isSome"), (r"\.isEmpty\b", ".length.beq 7"),
    (r"\.filter \([^()]*(\([^()]*\)[^()]*)*\)", ""),
]

def code_lines(text):
    """Indices of lines that are code: no comments, no imports."""
    inc = False
    for i, l in enumerate(text):
        s = l.strip()
        if inc:
            if "-/" in s: inc = False
            continue
        if s.startswith("/-"):
            if "-/" not in s: inc = True
            continue
        if not s or s.startswith(("--", "import", "open", "namespace", "end", "deriving", "set_option", "variable", "example", "theorem")):
            continue
        yield i

def edits():
    res = []
    base = os.path.join(mutate.SCR, "Verif", BASE)
    for f in sorted(os.listdir(base)):
        text = open(os.path.join(base, f)).read().split("\n")
        seen, inthm = set(), False
        for i in code_lines(text):
            l = text[i]
            if re.match(r"(theorem|example|instance|lemma)", l): inthm = True
            elif l and not l[0].isspace(): inthm = False
            if inthm: continue
            code = l.split(" -- ")[0]
            for pat, rep in RULES:
                for m in re.finditer(pat, code):
                    new = code[:m.start()] + m.expand(rep) + code[m.end():]
                    if new != code and (i, new) not in seen:
                        seen.add((i, new)); res.append((f"Verif/{BASE}/" + f, i, l, new))
            # a statement of a do block, dropped
            s = code.strip()
            if BASE == "Spec" and re.match(r"\w+ : ∀ ", s): res.append((f"Verif/{BASE}/" + f, i, l, code.split(" : ")[0] + " : True"))
            if re.match(r"(op|callUser|call|log|record|emit|\.op|set|_ ←|let _ ←)\b", s) and l.startswith("  "):
                res.append((f"Verif/{BASE}/" + f, i, l, None))
    return res

def build():
    """0 all built; 1 a file outside Model fails; 2 the model itself does not compile."""
    p = subprocess.Popen(["lake", "build"], cwd=mutate.SCR, stdout=subprocess.PIPE, stderr=subprocess.STDOUT, text=True, start_new_session=True)
    res, where = 0, None
    for line in p.stdout:
        m = re.match(r"error: (Verif/\S+?\.lean):(\d+)", line)
        if m:
            where = m.group(1) + ":" + m.group(2)
            res = 2 if m.group(1).startswith("Verif/" + BASE) else 1
            os.killpg(p.pid, 15)
            break
    p.wait()
    if res == 0 and p.returncode: res, where = 2, "?"
    return res, where

if __name__ == "__main__":
    mutate.sync()
    es = edits()
    if sys.argv[1] == "list":
        for e in es: print(e[0], e[1] + 1, "|", e[2].strip(), "=>", e[3] and e[3].strip())
        print(len(es)); sys.exit()
    if sys.argv[4:]: es = [e for e in es if os.path.basename(e[0])[:-5] in sys.argv[4:]]
    random.Random(int(sys.argv[2])).shuffle(es)
    done = {(r["file"], r["old"], r["new"]) for r in map(json.loads, open(OUT))} if os.path.exists(OUT) else set()
    for f, i, old, new in es[:int(sys.argv[3])]:
        if (f, old, new) in done: continue
        mutate.sync()
        fp = os.path.join(mutate.SCR, f)
        text = open(fp).read().split("\n")
        if new is None: del text[i]
        else: text[i] = new
        open(fp, "w").write("\n".join(text))
        t0 = time.time()
        res, where = build()
        rec = dict(file=f, line=i + 1, old=old, new=new, result=["SURVIVED", "killed", "no model"][res], where=where, seconds=round(time.time() - t0))
        open(OUT, "a").write(json.dumps(rec, ensure_ascii=False) + "\n")
        print(rec["result"], f, i + 1, "|", old.strip(), "=>", new and new.strip(), "|", where, rec["seconds"], flush=True)
