"""Append the axioms of the theorems in MANIFEST.json to DESIGN.md (usage: design.py)."""
import json, re, subprocess
src = '\n'.join(['import Verif'] + ['#print axioms ' + t for c in json.load(open('/verif/MANIFEST.json'))['claims'] for t in c['theorems']])
open('/tmp/design_ax.lean', 'w').write(src)
out = subprocess.run(['lake', 'env', 'lean', '/tmp/design_ax.lean'], cwd='/verif/lean', capture_output=True, text=True).stdout
groups = {}
for m in re.finditer(r"'([^']+(?:'[^' ]*)?)' (?:depends on axioms: \[([^\]]*)\]|does not depend on any axioms)", out):
    groups.setdefault(' '.join((m.group(2) or 'none').split()), []).append(m.group(1))
d = open('/verif/DESIGN.md').read().split('\n## Axioms per theorem')[0].rstrip('\n')
d += '\n\n## Axioms per theorem\n\nOutput of `#print axioms` for the theorems in `MANIFEST.json`, grouped.\n'
for g in sorted(groups):
    d += '\n* ' + g + ': ' + ', '.join('`%s`' % t for t in groups[g]) + '\n'
open('/verif/DESIGN.md', 'w').write(d)
print({g: len(groups[g]) for g in groups})
