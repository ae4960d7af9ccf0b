#!/usr/bin/env python3
"""Which lines of /repo/src are cited by the model, and which code lines are not. usage: tools/coverage.py [file]"""
import os, re, sys
ROOT = os.path.join(os.path.dirname(os.path.abspath(__file__)), "..", "lean", "Verif", "Model")
cited = {}
for f in sorted(os.listdir(ROOT)):
    text = open(os.path.join(ROOT, f)).read()
    for m in re.finditer(r"(src/[\w/]+\.rs):((?:\s*\d+(?:-\d+)?(?:\s*[,;]\s*(?:and\s+)?|\s+and\s+|\s+with\s+)?)+)", text):
        for a, b in re.findall(r"(\d+)(?:-(\d+))?", m.group(2)):
            cited.setdefault(m.group(1), set()).update(range(int(a), int(b or a) + 1))
total = hit = 0
for d, _, fs in os.walk("/repo/src"):
    for f in sorted(fs):
        p = os.path.join(d, f); rel = os.path.relpath(p, "/repo")
        if len(sys.argv) > 1 and rel != sys.argv[1]: continue
        lines = open(p).read().split("\n")
        code = [i for i, l in enumerate(lines, 1) if l.strip() and not l.strip().startswith(("//", "#[", "use ", "}", ")"))]
        miss = [i for i in code if i not in cited.get(rel, ())]
        total += len(code); hit += len(code) - len(miss)
        print(f"{rel}: {len(code) - len(miss)}/{len(code)} code lines cited")
        if len(sys.argv) > 1:
            for i in miss: print(f"{i:5} {lines[i-1]}")
print(f"total {hit}/{total}")
