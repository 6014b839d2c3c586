#!/usr/bin/env python3
"""Make one small edit per definition of the model, for seed.py.

usage: mutgen.py SEED PER_DEF OUT.json [file substring ...]
Edits are the usual slips: a boundary moved, an operator or a side swapped, a constant off by one, a
branch or a sign lost. Definitions that the log already has are taken too, with other edits.
"""
import glob, json, os, random, re, sys
seed, per, out = int(sys.argv[1]), int(sys.argv[2]), sys.argv[3]
pick = sys.argv[4:]
root = os.path.join(os.path.dirname(os.path.abspath(__file__)), '..', 'lean', 'Verif')
rnd = random.Random(seed)
OPS = [
    (r'≤', '<', 'boundary: ≤ became <'), (r'≥', '>', 'boundary: ≥ became >'),
    (r'(?<![<|←\-])<(?![|<;\-])(?=\s)', '≤', 'boundary: < became ≤'),
    (r'(?<= )\+(?= )', '-', '+ became -'), (r'(?<= )-(?= )', '+', '- became +'),
    (r'(?<= )\*(?= )', '+', '* became +'),
    (r'&&', '||', '&& became ||'), (r'\|\|', '&&', '|| became &&'),
    (r'∧', '∨', '∧ became ∨'), (r'∨', '∧', '∨ became ∧'),
    (r'\.lt\b', '.gt', 'lt and gt swapped'), (r'\.gt\b', '.lt', 'gt and lt swapped'),
    (r'\.lo\b', '.hi', 'upper end used for the lower'), (r'\.hi\b', '.lo', 'lower end used for the upper'),
    (r'\btrue\b', 'false', 'true became false'), (r'\bfalse\b', 'true', 'false became true'),
    (r'\.1\b', '.2', 'second component used'), (r'\.2\b', '.1', 'first component used'),
    (r'\bmin\b', 'max', 'min became max'), (r'\bmax\b', 'min', 'max became min'),
    (r'≠', '=', 'test inverted'), (r'(?<= )=(?= )(?!>)', '≠', 'test inverted'),
    (r'(?<![\w.⟨{\[])0(?![\w.])', '1', '0 became 1'), (r'(?<![\w.])1(?![\w.])', '2', '1 became 2'),
    (r'(?<![\w.])1(?![\w.])', '0', '1 became 0'), (r'(?<![\w.])2(?![\w.])', '3', '2 became 3'),
    (r'(?<=[(\[, ])-(?=[a-z(])', '', 'sign lost'),
    (r'\btdiv\b', 'ediv', 'floor division'), (r'\btmod\b', 'emod', 'other remainder'),
    (r'\bfdiv\b', 'tdiv', 'truncated division'), (r'\.reverse\b', '', 'not reversed'),
    (r'\.natAbs\b', '.toNat', 'absolute value lost'),
]
muts = []
for f in sorted(glob.glob(root + '/Model/*.lean')):
    name = os.path.basename(f)
    if name == 'PrimeTable.lean' or (pick and not any(p in name for p in pick)): continue
    src = open(f, encoding='utf8').read()
    starts = [m.start() for m in re.finditer(r'^(?:/--|def |theorem |instance |structure |inductive |namespace |end |@\[|abbrev |variable |class |section |open |/-!|lemma |noncomputable )', src, re.M)]
    ns = []
    for m in re.finditer(r'^(def ([\w.]+)|namespace ([\w.]+)|end ([\w.]+))', src, re.M):
        if m.group(3): ns.append(m.group(3)); continue
        if m.group(4): ns and ns.pop(); continue
        end = min([s for s in starts if s > m.start()], default=len(src))
        head = src.find(':=', m.start(), end)
        bar = re.search(r'\n  \| ', src[m.start():end])
        b = head + 2 if head >= 0 else m.start()
        if bar and (head < 0 or m.start() + bar.start() < head): b = m.start() + bar.start()
        sites = []
        for pat, rep, what in OPS:
            for x in re.finditer(pat, src[b:end]):
                line = src.rfind('\n', 0, b + x.start()) + 1
                if '--' in src[line:b + x.start()]: continue
                sites.append((b + x.start(), b + x.end(), rep, what))
        rnd.shuffle(sites)
        for i, j, rep, what in sites[:per]:
            # make the edited text unique by widening it
            l, r = i, j
            while src.count(src[l:r]) != 1:
                l = max(m.start(), l - 1); r = min(end, r + 1)
                if l == m.start() and r == end: break
            if src.count(src[l:r]) != 1: continue
            k = src.count('\n', m.start(), i)
            ctx = src[src.rfind('\n', 0, i) + 1:src.find('\n', i)].strip()
            muts.append({'file': 'Model/' + name, 'def': '.'.join([n for n in ns if n != 'Algebraics'] + [m.group(2)]),
                         'edit': f'{what}, in: {ctx[:120]}', 'old': src[l:r],
                         'new': src[l:i] + rep + src[j:r], 'claim': ''})
json.dump(muts, open(out, 'w'), ensure_ascii=False, indent=0)
print(len(muts))
