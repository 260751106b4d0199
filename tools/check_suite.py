"""Compares the citations in lean/Verif/Suite with the tests in /repo/test.

Every citation has the form `Test` (`dir/file.cc:first-last`).  Prints wrong citations and the tests that are not cited."""
import glob, os, re, sys

root = os.path.join(os.path.dirname(os.path.abspath(__file__)), '..', 'lean', 'Verif', 'Suite')
tests = {}
for f in sorted(glob.glob('/repo/test/*/*.cc')):
    lines = open(f).read().split('\n')
    for i, l in enumerate(lines):
        m = re.match(r'TEST\((\w+),\s*(\w+)\)', l)
        if m:
            j = next(k for k in range(i, len(lines)) if lines[k].startswith('}'))
            tests.setdefault((f[len('/repo/test/'):], f'{i + 1}-{j + 1}'), m[2])
cited, bad = set(), 0
for f in sorted(glob.glob(os.path.join(root, '*.lean'))):
    for t, file, r in re.findall(r'`(\w+)`\s+\(`([\w/]+\.cc):(\d+-\d+)`\)', open(f).read()):
        if tests.get((file, r)) != t:
            bad += 1
            print('wrong:', os.path.basename(f), t, file, r)
        cited.add((file, r))
for k, t in tests.items():
    if k not in cited:
        print('not cited:', t, k[0] + ':' + k[1])
print(len(tests), 'tests,', len(cited & set(tests)), 'cited,', bad, 'wrong citations')
sys.exit(bad > 0)
