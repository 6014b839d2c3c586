#!/usr/bin/env python3
"""Fill in the empty "claim" fields of seeded/LOG.jsonl from the theorems that failed."""
import json, re, pathlib

# when only a lemma failed that the theorems of a property are built on
BY_DEFINITION = {'Python': 'C62', 'popBack': 'C64', 'IntTy': 'C54', 'millerRabinTestForBase': 'C54',
                 'isPseudoPrime': 'C54', 'Array2D': 'C56', 'Lattice': 'C52'}

root = pathlib.Path(__file__).resolve().parent.parent
titles = {}
for line in (root / 'properties.jsonl').read_text().splitlines():
    if line.strip():
        d = json.loads(line)
        titles[d['id']] = d['title']
out = []
for line in (root / 'seeded/LOG.jsonl').read_text().splitlines():
    if not line.strip():
        continue
    d = json.loads(line)
    if not d.get('claim'):
        for key in ('failed', 'not_provable_because_a_lemma_failed'):
            ids = sorted({m for n in d.get(key, []) for m in re.findall(r'\b(C\d\d)_', n)})
            if ids:
                d['claim'] = '; '.join(f'{i}: {titles[i]}' for i in ids[:6])
                break
        else:
            base = d['definition'].split('.')[0]
            if base in BY_DEFINITION and not d.get('survived'):
                i = BY_DEFINITION[base]
                d['claim'] = f'{i}: {titles[i]}'
    out.append(json.dumps(d, ensure_ascii=False))
(root / 'seeded/LOG.jsonl').write_text('\n'.join(out) + '\n')
