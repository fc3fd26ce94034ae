#!/usr/bin/env python3
"""List names declared in more than one module (they cannot be imported together)."""
import collections, glob, os, re
root = os.path.join(os.path.dirname(os.path.abspath(__file__)), '..', 'lean')
seen = collections.defaultdict(set)
for p in glob.glob(root + '/Verif/**/*.lean', recursive=True):
    ns = []
    for l in open(p):
        m = re.match(r'namespace (\S+)', l)
        if m: ns.append(m.group(1))
        m = re.match(r'section\b', l)
        if m: ns.append('')
        if re.match(r'end\b', l) and ns: ns.pop()
        m = re.match(r'(?:@\[[^\]]*\] )?(?:protected |noncomputable )*(?:theorem|def|lemma|abbrev|structure|inductive|instance)\s+([^\s:({\[]+)', l)
        if m: seen['.'.join([x for x in ns if x] + [m.group(1)])].add(os.path.relpath(p, root))
for n, s in sorted(seen.items()):
    if len(s) > 1: print(n, *sorted(s))
