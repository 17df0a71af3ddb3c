"""Try wrong programs: apply an edit to a scratch copy of the Lean project, replace each proof that breaks by `sorry`, and
list the claimed theorems that depend on a broken proof.

usage: seed.py seeds.py [first [last [step]]]

seeds.py defines SEEDS, a list of dictionaries with the keys file, old, new, definition, edit, claim. Results are printed as JSON lines.
The scratch copy is /tmp/seed/lean; /tmp/seed/clean must be a built copy of lean.
"""
import json
import os
import re
import shutil
import subprocess
import sys

HERE = os.path.dirname(os.path.dirname(os.path.abspath(__file__)))
CLEAN = os.environ.get("SEED_CLEAN", "/tmp/seed/clean")
SCRATCH = os.environ.get("SEED_SCRATCH", "/tmp/seed/lean")
TOP = re.compile(r"^(theorem|def|example|instance|structure|inductive|abbrev|class|end|namespace|open|/-|@\[|set_option|variable|section|deriving|private|import|mutual|noncomputable|partial_fixpoint|attribute)")


def reset():
    shutil.rmtree(SCRATCH, ignore_errors=True)
    subprocess.run(["cp", "-a", CLEAN, SCRATCH], check=True)


def build():
    p = subprocess.run(["lake", "build"], cwd=SCRATCH, capture_output=True, text=True)
    return p.returncode, p.stdout + p.stderr


def block(lines, n):
    """first and last line (exclusive) of the declaration that contains line n (0-based)"""
    a = n
    while a > 0 and not re.match(r"^(theorem|def|example|instance|structure|inductive|abbrev|class|private theorem)", lines[a]):
        a -= 1
    b = a + 1
    while b < len(lines) and not TOP.match(lines[b]):
        b += 1
    return a, b


def body(text):
    """position of the proof in the text of a theorem"""
    m = re.search(r":= by\n", text)
    if m:
        return m.start()
    depth = 0
    for i, c in enumerate(text):
        if c in "([{⟨":
            depth += 1
        elif c in ")]}⟩":
            depth -= 1
        elif depth == 0 and text.startswith(":=", i):
            return i
        elif depth == 0 and text.startswith("\n  | ", i):
            return i
    return None


def sorry_out(path, line):
    full = os.path.join(SCRATCH, path)
    lines = open(full).read().split("\n")
    a, b = block(lines, line - 1)
    text = "\n".join(lines[a:b]) + "\n"
    head = lines[a].split()
    if head[0] == "example":
        lines[a:b] = ["example : True := trivial"] + [""] * (b - a - 1)
        name = "example in " + path
    elif head[0] in ("theorem", "private"):
        k = body(text)
        if k is None or ":= sorry" in text:
            return None
        new = text[:k] + " := sorry\n"
        out = new.split("\n")
        out += [""] * ((b - a) - len(out))
        lines[a:b] = out
        name = head[1] if head[0] == "theorem" else head[2]
    else:
        return None
    open(full, "w").write("\n".join(lines))
    return name


def axioms():
    names = []
    for c in json.load(open(os.path.join(HERE, "MANIFEST.json")))["claims"]:
        names += c["theorems"]
    with open(os.path.join(SCRATCH, "Ax.lean"), "w") as f:
        f.write("import Verif\n" + "".join("#print axioms %s\n" % n for n in names))
    p = subprocess.run(["lake", "env", "lean", "Ax.lean"], cwd=SCRATCH, capture_output=True, text=True)
    out = p.stdout.replace("\n  ", " ").replace("\n ", " ")
    bad = []
    for m in re.finditer(r"'([^'\s]+(?:'[^' ]*)?)' depends on axioms: \[([^\]]*)\]", out):
        if "sorryAx" in m.group(2):
            bad.append(m.group(1))
    return bad


def run(seed):
    reset()
    full = os.path.join(SCRATCH, "Verif", seed["file"])
    text = open(full).read()
    if text.count(seed["old"]) != 1:
        return {"error": "edit applies %d times" % text.count(seed["old"])}
    open(full, "w").write(text.replace(seed["old"], seed["new"]))
    broken = []
    for _ in range(60):
        code, out = build()
        if code == 0:
            break
        errs = sorted(set((m.group(1), int(m.group(2))) for m in re.finditer(r"error: (Verif/[^:]*):(\d+):\d+:", out)), reverse=True)
        if not errs:
            return {"error": out[-2000:]}
        done = set()
        for path, line in errs:
            lines = open(os.path.join(SCRATCH, path)).read().split("\n")
            a, _b = block(lines, line - 1)
            if (path, a) in done:
                continue
            done.add((path, a))
            name = sorry_out(path, line)
            if name is None:
                return {"error": "cannot repair %s:%d" % (path, line), "broken": broken, "out": out[-1500:]}
            broken.append(name)
    else:
        return {"error": "too many rounds", "broken": broken}
    return {"broken": broken, "claims": axioms()}


if __name__ == "__main__":
    env = {}
    exec(open(sys.argv[1]).read(), env)
    seeds = env["SEEDS"]
    first = int(sys.argv[2]) if len(sys.argv) > 2 else 0
    last = int(sys.argv[3]) if len(sys.argv) > 3 else len(seeds)
    step = int(sys.argv[4]) if len(sys.argv) > 4 else 1
    for n in range(first, last, step):
        r = run(seeds[n])
        print(json.dumps({"n": n, **{k: seeds[n][k] for k in ("file", "definition", "edit", "claim")}, **r}), flush=True)
