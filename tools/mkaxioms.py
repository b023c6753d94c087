"""Print, for every theorem named in MANIFEST.json, the axioms it depends on, and put the
list between the AXIOMS markers of DESIGN.md."""
import json, re, subprocess, textwrap, os
root = os.path.dirname(os.path.dirname(os.path.abspath(__file__)))
names = []
for c in json.load(open(root + "/MANIFEST.json"))["claims"]:
    for t in c["theorems"]:
        if t not in names:
            names.append(t)
src = "import Verif\n" + "".join("#print axioms %s\n" % n for n in names)
open("/tmp/axioms.lean", "w").write(src)
out = subprocess.run(["lake", "env", "lean", "/tmp/axioms.lean"], cwd=root + "/lean", capture_output=True, text=True).stdout
groups = {}
for m in re.finditer(r"'([^']+)' (does not depend on any axioms|depends on axioms: \[([^\]]*)\])", out):
    ax = tuple(sorted(a.strip() for a in m.group(3).split(","))) if m.group(3) else ()
    groups.setdefault(ax, []).append(m.group(1).removeprefix("VJ."))
text = ""
for ax in sorted(groups, key=lambda a: (len(a), a)):
    text += "* %s (%d theorems): %s\n\n" % ("`" + "`, `".join(ax) + "`" if ax else "no axioms", len(groups[ax]), ", ".join("`%s`" % n for n in groups[ax]))
total = sum(len(g) for g in groups.values())
assert total == len(names), (total, len(names))
p = root + "/DESIGN.md"
s = open(p).read()
a, b = "<!-- AXIOMS -->\n", "<!-- END AXIOMS -->"
i, j = s.index(a) + len(a), s.index(b)
body = "".join(textwrap.fill(l, 110, subsequent_indent="  ", break_long_words=False, break_on_hyphens=False) + "\n" if l else "\n" for l in text.rstrip("\n").split("\n"))
open(p, "w").write(s[:i] + body + s[j:])
print({k: len(v) for k, v in groups.items()})
