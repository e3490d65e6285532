#!/usr/bin/env python3
"""Generate wrong programs mechanically: small edits of every line of the definitions of the model.

usage: automutate.py SEED COUNT > MUTATIONS.json

The edits are those of the usual mutation operators (off by one, comparison, sign, dropped update, exchanged
names). COUNT of them are drawn at random, at most one per line. The claim is "C": any claim may catch them.
"""
import glob, json, os, random, re, sys

ROOT = os.path.dirname(os.path.dirname(os.path.abspath(__file__)))
OPS = [
    (r"(?<=[^<≤:=>]) < (?=\S)", " ≤ "), (r" ≤ ", " < "), (r"(?<=[^-=|]) > (?=\S)", " ≥ "), (r" ≥ ", " > "),
    (r" \+ 1\b", ""), (r" \+ 1\b", " + 2"), (r" - 1\b", ""), (r" \+ (?=[a-z])", " - "), (r" - (?=[a-z])", " + "),
    (r"\b0\b", "1"), (r"\b1\b", "2"), (r"\b2\b", "3"), (r"\b7\b", "6"), (r"\b8\b", "7"), (r"\b32\b", "64"), (r"\b64\b", "32"),
    (r" && ", " || "), (r" \|\| ", " && "), (r" = (?=[^{]*\bthen\b)", " ≠ "), (r" ≠ ", " = "), (r" != ", " == "),
    (r"\btrue\b", "false"), (r"\bfalse\b", "true"), (r"\bstart\b", "«end»"), (r"startPos\b", "endPos"), (r"endPos\b", "startPos"),
    (r"startOffset\b", "endOffset"), (r"endOffset\b", "startOffset"), (r"\[\]", "[0]"),
    (r"dataWriter\b", "indexWriter"), (r"indexWriter\b", "dataWriter"), (r"os\.data\b", "os.index"), (r"os\.index\b", "os.data"),
    (r"\.getLast\?", ".head?"), (r"\.take\b", ".drop"), (r"\.drop\b", ".take"), (r"\+\+", "++ [] ++"),
    (r"validityPos\b", "0"), (r"bitPos\b", "0"), (r"some \(", "none --("), (r"::", ":: [] ++"),
    (r"\|\|\|", "&&&"), (r"&&&", "|||"), (r">>>", "<<<"), (r"<<<", ">>>"), (r" % ", " / "), (r" / ", " % "), (r" \* ", " + "),
]


def code_lines(text):
    """Line numbers (0-based) inside the bodies of definitions."""
    out, in_def, in_doc = [], False, False
    for i, l in enumerate(text.split("\n")):
        s = l.strip()
        if s.startswith("/-"):
            in_doc, in_def = True, False
        if in_doc:
            if s.endswith("-/"):
                in_doc = False
            continue
        if re.match(r"(def|abbrev|inductive|instance)\b", l):
            in_def = l.startswith("def") or l.startswith("instance")
            if ":=" in l and in_def and not l.rstrip().endswith(":="):
                out.append(i)
            continue
        if l and not l[0].isspace():
            in_def = False
        if in_def and s and not s.startswith(("--", "termination_by", "decreasing_by", "deriving")):
            out.append(i)
    return out


def main():
    seed, count = int(sys.argv[1]), int(sys.argv[2])
    rnd = random.Random(seed)
    muts = []
    for path in sorted(glob.glob(os.path.join(ROOT, "lean/Verif/Model/*.lean"))):
        text = open(path).read()
        lines = text.split("\n")
        for i in code_lines(text):
            cands = []
            head = lines[i].index(":=") + 2 if re.match(r"def\b", lines[i]) else 0
            for pat, new in OPS:
                for m in re.finditer(pat, lines[i]):
                    if m.start() < head or "++ [] ++" in new or "--(" in new or ":: [] ++" in new:
                        continue
                    cands.append(lines[i][:m.start()] + new + lines[i][m.end():])
            if not cands:
                continue
            d = next((re.match(r"(?:def|instance) *(?:: )?(\S+)", lines[j]).group(1) for j in range(i, -1, -1)
                      if re.match(r"(def|instance)\b", lines[j])), "?")
            new = rnd.choice(cands)
            k = i
            while k > 0 and text.count("\n".join(lines[k:i + 1])) != 1:
                k -= 1
            muts.append({"file": "Model/" + os.path.basename(path), "definition": d,
                         "old": "\n".join(lines[k:i + 1]), "new": "\n".join(lines[k:i] + [new]),
                         "edit": f"`{lines[i].strip()}` becomes `{new.strip()}`", "claim": "C"})
    rnd.shuffle(muts)
    json.dump(muts[:count] if count else muts, sys.stdout, indent=1, ensure_ascii=False)
    print()


if __name__ == "__main__":
    main()
