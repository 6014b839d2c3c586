#!/usr/bin/env python3
"""Copy the table PRIMES_THAT_FIT_IN_U16 of /repo/src/util.rs into lean/Verif/Model/PrimeTable.lean."""
import re
lines = open('/repo/src/util.rs').read().split('\n')
start = next(i for i, l in enumerate(lines) if 'const PRIMES_THAT_FIT_IN_U16' in l)
end = next(i for i in range(start, len(lines)) if lines[i].strip() == '];')
nums = [int(x) for x in re.findall(r'\d+', '\n'.join(lines[start + 1:end]))]
assert len(nums) == 6542
out = ['/-!', 'Generated by tools/primetable.py from /repo/src/util.rs.', '-/', '', 'namespace Algebraics', '',
       'set_option maxRecDepth 20000', '']
size = 256
chunks = [nums[i:i + size] for i in range(0, len(nums), size)]
for k, c in enumerate(chunks):
    out.append('/-- Part %d of the table at /repo/src/util.rs lines %d-%d. -/' % (k, start + 1, end + 1))
    out.append('def primeTable%d : List ℕ := [' % k)
    for j in range(0, len(c), 14):
        out.append('  ' + ', '.join(map(str, c[j:j + 14])) + (',' if j + 14 < len(c) else ']'))
    out.append('')
out.append('/-- `PRIMES_THAT_FIT_IN_U16` (/repo/src/util.rs lines %d-%d), entry for entry. -/' % (start + 1, end + 1))
out.append('def primesThatFitInU16 : List ℕ :=')
out.append('  ' + ' ++\n  '.join('primeTable%d' % k for k in range(len(chunks))))
out += ['', 'end Algebraics', '']
text = '\n'.join(out).replace('-/\n\nnamespace', '-/\nimport Mathlib.Data.Nat.Notation\n\nnamespace', 1)
# imports must come first
text = 'import Mathlib.Data.Nat.Notation\n\n' + text.replace('import Mathlib.Data.Nat.Notation\n', '', 1)
open('/verif/lean/Verif/Model/PrimeTable.lean', 'w').write(text)
