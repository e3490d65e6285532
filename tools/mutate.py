#!/usr/bin/env python3
"""Try wrong programs: apply an edit to a model definition in a scratch copy, rebuild, and report
which theorems no longer prove.

usage: mutate.py MUTATIONS.json [--log] [--claims-only]

MUTATIONS.json is a list of {"file", "definition", "old", "new", "edit", "claim"}; `old` must occur
once in lean/Verif/<file>. Proofs that fail are replaced by `sorry` in the scratch copy so that the
build can go on; a manifest theorem counts as failed when it then depends on `sorryAx`. With --log a
line is added to seeded/LOG.jsonl for each mutation. With --claims-only just the modules with the
theorems of the claimed properties are built, so failures of other theorems are not reported.
"""
import json, os, re, shutil, subprocess, sys

ROOT = os.path.dirname(os.path.dirname(os.path.abspath(__file__)))
SCRATCH = os.environ.get("SCRATCH", "/tmp/mutant")
TOP = re.compile(r"^(theorem|lemma|def|example|instance|structure|inductive|namespace|end\b|section|open|"
                 r"variable|/--|/-!|omit|set_option|@\[|private|protected|abbrev|mutual|attribute|import|"
                 r"deriving|#|local|scoped|noncomputable)")
DECL = re.compile(r"^(?:@\[[^\]]*\] *)?(?:private |protected )?(theorem|lemma|example|instance|def|abbrev)\b *([^\s:({\[]*)")


def decl_span(lines, ln):
    """First and last+1 line (0-based) of the declaration around 0-based line ln."""
    i = ln
    if lines[i].startswith("/--"):  # some errors are reported at the comment before the declaration
        while i < len(lines) - 1 and not DECL.match(lines[i]):
            i += 1
    while i >= 0 and not DECL.match(lines[i]):
        i -= 1
    j = i + 1
    while j < len(lines) and not TOP.match(lines[j]):
        j += 1
    return i, j


def sorry_out(path, errlines):
    """Replace by sorry the proofs of the declarations at the given 1-based lines; return their names."""
    lines = open(path).read().split("\n")
    spans = {}
    for ln in errlines:
        i, j = decl_span(lines, ln - 1)
        if i < 0:
            raise RuntimeError(f"{path}:{ln}: no declaration")
        spans[i] = j
    names = []
    for i in sorted(spans, reverse=True):
        j = spans[i]
        text = "\n".join(lines[i:j])
        m = DECL.match(lines[i])
        kind, name = m.group(1), m.group(2)
        if kind in ("def", "abbrev"):
            raise RuntimeError(f"{path}:{i+1}: definition {name} does not compile")
        names.append(name or f"example {os.path.basename(path)}:{i+1}")
        if kind == "example":
            while i > 0 and lines[i - 1].startswith("set_option") and lines[i - 1].endswith(" in"):
                i -= 1
            if i > 0 and lines[i - 1].rstrip().endswith("-/"):
                lines[i - 1] = lines[i - 1].rstrip()[:-2] + "-/\nexample : True := trivial"
            lines[i:j] = [""]
            continue
        depth, k, cut = 0, 0, None
        while k < len(text):
            c = text[k]
            if c in "([{⟨":
                depth += 1
            elif c in ")]}⟩":
                depth -= 1
            elif depth == 0 and text.startswith(":=", k) and \
                    not re.search(r"\b(let|have)\b[^=←]*$", text[text.rfind("\n", 0, k) + 1:k]):
                cut = k
                break
            elif depth == 0 and re.match(r"\swhere\s", text[k:k + 7]):
                cut = k
                break
            elif depth == 0 and text.startswith("\n  | ", k):
                cut = k
                break
            k += 1
        if cut is None:
            raise RuntimeError(f"{path}:{i+1}: cannot cut {name}")
        if text[cut:].strip() == ":= sorry":
            raise RuntimeError(f"{path}:{i+1}: statement of {name} does not elaborate")
        new = text[:cut].rstrip() + " := sorry"
        lines[i:j] = new.split("\n") + [""]
    open(path, "w").write("\n".join(lines))
    return names[::-1]


def modules_of(mut):
    """The modules under Verif/Props with a theorem of one of the properties the mutation names."""
    ids = re.findall(r"C\d+", mut["claim"])
    mods = []
    props = os.path.join(ROOT, "lean", "Verif", "Props")
    for f in sorted(os.listdir(props)):
        text = open(os.path.join(props, f)).read()
        if any(re.search(rf"^theorem {i}_", text, re.M) for i in ids):
            mods.append("Verif.Props." + f[:-5])
    return mods


def build(d, mods=()):
    r = subprocess.run(["lake", "build", *mods], cwd=d, capture_output=True, text=True)
    errs = {}
    for m in re.finditer(r"^error: (Verif/\S+?\.lean):(\d+):\d+:", r.stdout + r.stderr, re.M):
        errs.setdefault(m.group(1), set()).add(int(m.group(2)))
    return r.returncode == 0, errs, r.stdout + r.stderr


def heavy(rel):
    """The evaluation of a false statement can exhaust the memory: find the declarations of the file for which this
    happens, trying each with the others replaced by sorry, and replace their proofs."""
    path = os.path.join(SCRATCH, rel)
    text = open(path).read()
    marks = [i for i, l in enumerate(text.split("\n"), 1) if "decide +kernel" in l]
    bad = []
    for ln in marks:
        others = [l if "decide +kernel" not in l or i == ln else l.replace("decide +kernel", "sorry")
                  for i, l in enumerate(text.split("\n"), 1)]
        tmp = os.path.join(SCRATCH, "heavy.lean")
        open(tmp, "w").write("\n".join(others))
        r = subprocess.run(["lake", "env", "lean", "heavy.lean"], cwd=SCRATCH, capture_output=True, text=True)
        if "error" in r.stdout or r.returncode != 0:
            bad.append(ln)
        os.remove(tmp)
    if not bad:
        raise RuntimeError(f"{rel}: out of memory")
    return sorry_out(path, bad)


def run(mut, claims, mods=()):
    src = os.path.join(ROOT, "lean")
    subprocess.run(["rsync", "-a", "--delete", src + "/", SCRATCH + "/"], check=True) if shutil.which("rsync") \
        else (shutil.rmtree(SCRATCH, ignore_errors=True), shutil.copytree(src, SCRATCH, symlinks=True))
    with open(os.path.join(SCRATCH, "lakefile.toml"), "a") as f:  # evaluating a false statement can take all memory
        f.write('weakLeanArgs = ["-M5000"]\n')
    edits = mut.get("edits") or [mut]
    for ed in edits:
        path = os.path.join(SCRATCH, "Verif", ed["file"])
        s = open(path).read()
        if s.count(ed["old"]) != 1:
            raise RuntimeError(f"{mut['definition']}: old text occurs {s.count(ed['old'])} times")
        open(path, "w").write(s.replace(ed["old"], ed["new"]))
    failed = []
    for _ in range(60):
        ok, errs, out = build(SCRATCH, mods)
        if ok:
            break
        if not errs:
            m = re.search(r"Building (Verif\.\S+)[^\n]*\ntrace.*\nerror: Lean exited with code (?:137|152)", out)
            if not m:
                raise RuntimeError(out[-2000:])
            failed += heavy(m.group(1).replace(".", "/") + ".lean")
            continue
        for f, lns in errs.items():
            failed += [n for n in sorry_out(os.path.join(SCRATCH, f), lns)]
    else:
        raise RuntimeError("no fixpoint")
    chk = os.path.join(SCRATCH, "chk.lean")
    names = sorted({t for c in claims for t in c["theorems"]})
    with open(chk, "w") as f:
        f.write("".join(f"import {m}\n" for m in mods or ["Verif"]) + "".join(f"#print axioms {n}\n" for n in names))
    out = subprocess.run(["lake", "env", "lean", "-DmaxErrors=100000", "chk.lean"], cwd=SCRATCH, capture_output=True, text=True).stdout
    tainted = [m.group(1) for m in re.finditer(r"'(\S+)' depends on axioms: \[([^\]]*)\]", out) if "sorryAx" in m.group(2)]
    return failed, sorted(t.replace("Meerkat.", "") for t in tainted)


def main():
    muts = json.load(open(sys.argv[1]))
    log = "--log" in sys.argv
    claims = json.load(open(os.path.join(ROOT, "MANIFEST.json")))["claims"]
    for mut in muts:
        try:
            failed, tainted = run(mut, claims, modules_of(mut) if "--claims-only" in sys.argv else ())
        except RuntimeError as e:
            print("ERROR", mut["definition"], e, flush=True)
            continue
        hit = [t for t in tainted if any(t.startswith(c) for c in mut["claim"].split())]
        print(json.dumps({"definition": mut["definition"], "edit": mut["edit"], "claim": mut["claim"],
                          "caught": bool(hit), "hit": hit, "failed": failed, "tainted": tainted}), flush=True)
        if log:
            with open(os.path.join(ROOT, "seeded", "LOG.jsonl"), "a") as f:
                f.write(json.dumps({"definition": mut["definition"], "edit": mut["edit"], "claim": mut["claim"],
                                    "theorems_failed": tainted, "lemmas_failed": failed,
                                    "theorems_tightened": []}) + "\n")


if __name__ == "__main__":
    main()
