"""Test the theorems against wrong programs.

usage: mutate.py batch.json   ([{"def", "edit", "claim", "edits": [[file, old, new], ...]}, ...])

Each edit is applied to a scratch copy of lean/.  A proof that no longer checks is
replaced by `sorry` and the build is repeated, so that at the end the manifest theorems that
depend on `sorryAx` are the ones that do not survive the edit.  One line per edit is
appended to seeded/LOG.jsonl.
"""
import json, os, re, shutil, subprocess, sys

VERIF = '/verif'
SCRATCH = os.environ.get('MUTDIR', '/tmp/mut')


def sh(cmd, **kw):
    return subprocess.run(cmd, shell=True, capture_output=True, text=True, **kw)


def decl_at(lines, ln):
    """Range of the top-level declaration that contains line ln (0-based)."""
    starts = [i for i, l in enumerate(lines)
              if re.match(r'(@\[.*\] *)?(private )?(theorem|lemma|example|def|structure|inductive|instance|abbrev|mutual|end|namespace|section|open|variable|#guard|/-)', l)]
    a = max([i for i in starts if i <= ln], default=0)
    b = min([i for i in starts if i > ln], default=len(lines))
    return a, b


def cut(text):
    """Position of the `:=` that starts the proof, at bracket depth 0."""
    d = 0
    i = 0
    while i < len(text):
        ch = text[i]
        if ch in '([{⟨':
            d += 1
        elif ch in ')]}⟩':
            d -= 1
        elif text.startswith(':=', i) and d == 0:
            return i
        elif text.startswith('\n  | ', i) and d == 0 and ':' in text[:i]:
            return i
        i += 1
    return None


def drop_example(lines, a, b):
    """Remove the example in lines a to b, and the comment above it."""
    lines[a:b] = ['']
    if a > 0 and lines[a - 1].endswith('-/'):
        c = a - 1
        while not lines[c].startswith('/-'):
            c -= 1
        lines[c:a] = ['']


def run(m):
    sh(f'rm -rf {SCRATCH}; cp -r {SCRATCH}.base {SCRATCH}')
    for file, old, new in m['edits']:
        path = f'{SCRATCH}/Verif/{file}'
        src = open(path).read()
        if old not in src:
            return {'error': f'{file}: no {old!r}'}, []
        open(path, 'w').write(src.replace(old, new))
    broken, dropped, retried, last = [], 0, False, ''
    for it in range(60):
        r = sh('lake build', cwd=SCRATCH)
        out = r.stdout + r.stderr
        if r.returncode == 0:
            break
        errs = {}
        for f, l in re.findall(r'error: (Verif/[\w/]+\.lean):(\d+):\d+', out):
            errs.setdefault(f, set()).add(int(l) - 1)
        if not errs and 'exited with code 137' in out:
            # a failing kernel computation ran out of memory: drop the computations
            if out == last:
                return {'error': out[-800:]}, broken
            if not retried:
                retried = True
                continue
            last, retried = out, False
            f = 'Verif/' + re.findall(r'^- Verif\.([\w.]+)$', out, re.M)[0].replace('.', '/') + '.lean'
            f = os.path.join(SCRATCH, f)
            lines = open(f).read().split('\n')
            for l in range(len(lines) - 1, -1, -1):
                if l < len(lines) and ('krfl' in lines[l] or 'decide +kernel' in lines[l]):
                    a, b = decl_at(lines, l)
                    t = '\n'.join(lines[a:b])
                    if t.startswith('theorem'):
                        broken.append(re.search(r'theorem (\S+)', t).group(1))
                        lines[a:b] = (t[:cut(t)] + ':= sorry\n').split('\n')
                    else:
                        dropped += 1
                        drop_example(lines, a, b)
            open(f, 'w').write('\n'.join(lines))
            continue
        if not errs:
            return {'error': out[-800:]}, broken
        for f, ls in errs.items():
            p = f'{SCRATCH}/{f}'
            lines = open(p).read().split('\n')
            ranges = sorted({decl_at(lines, l) for l in ls}, reverse=True)
            for a, b in ranges:
                t = '\n'.join(lines[a:b])
                if re.match(r'(@\[.*\] *)?(private )?theorem', t):
                    name = re.search(r'theorem (\S+)', t).group(1)
                    c = cut(t)
                    if c is None or ':= sorry' in t:
                        return {'error': f'cannot cut {name}: ' + out[-1500:]}, broken
                    broken.append(name)
                    lines[a:b] = (t[:c] + ':= sorry\n').split('\n')
                elif re.match(r'(example|#guard)', t):
                    dropped += 1
                    drop_example(lines, a, b)
                else:
                    return {'error': f'{f}:{a} not a theorem: ' + out[-1500:]}, broken
            open(p, 'w').write('\n'.join(lines))
    else:
        return {'error': 'too many iterations'}, broken
    names = [t for c in json.load(open(f'{VERIF}/MANIFEST.json'))['claims'] for t in c['theorems']]
    with open(f'{SCRATCH}/Ax.lean', 'w') as fh:
        fh.write('import Verif\n' + ''.join(f'#print axioms {n}\n' for n in names))
    r = sh('lake env lean Ax.lean', cwd=SCRATCH)
    failed = [n for n in names if re.search(r"'%s' depends on axioms: \[[^\]]*sorryAx" % re.escape(n), r.stdout)]
    return {'failed': failed, 'dropped': dropped}, broken


sh(f'rm -rf {SCRATCH}.new && mkdir -p {SCRATCH}.new {SCRATCH}.base && git -C {VERIF} archive HEAD lean | tar x -C {SCRATCH}.new'
   f' && cp -r {SCRATCH}.base/.lake {SCRATCH}.new/lean/; rm -rf {SCRATCH}.base; mv {SCRATCH}.new/lean {SCRATCH}.base')
if sh('lake build', cwd=SCRATCH + '.base').returncode != 0:
    sys.exit('base does not build')

for m in json.load(open(sys.argv[1])):
    res, broken = run(m)
    if 'error' in res:
        print('ERROR', m['def'], m['edit'], res['error'])
        continue
    short = [n.split('.')[-1] for n in res['failed']]
    line = {'definition': m['def'], 'edit': m['edit'], 'breaks': m['claim'],
            'witness': m.get('witness', ''), 'proofs_broken': broken, 'theorems_failed': short, 'examples_or_tests_failed': res['dropped'],
            'tightened': m.get('tightened', [])}
    print(json.dumps(line)[:900])
    sys.stdout.flush()
    if '--dry' not in sys.argv:
        with open(f'{VERIF}/seeded/LOG.jsonl', 'a') as fh:
            fh.write(json.dumps(line, ensure_ascii=False) + '\n')
