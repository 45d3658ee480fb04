"""Tests the theorems against wrong programs.

usage: seed.py MUTATIONS.jsonl

Each line of the input: {"file", "old", "new", "definition", "edit", "claim", "props": ["Poly", ...]}.  The edit is made
in a scratch copy of /verif/lean outside /verif.  Declarations that no longer compile are replaced by `sorry` there
until the copy builds; a theorem has failed when it then depends on `sorryAx`.  Results are printed as JSON lines.
"""
import json
import os
import re
import shutil
import subprocess
import sys

ROOT = '/verif/lean'
SCRATCH = '/tmp/scratch/lean'
START = re.compile(r'^(/--|@\[|omit |private |noncomputable |protected |theorem |lemma |def |instance|example|structure |'
                   r'inductive |abbrev |end\b|namespace |section|variable|open |attribute |set_option |/-!|mutual)')
DECL = re.compile(r'^(?:@\[[^\]]*\] |private |noncomputable |protected )*(theorem|lemma|example|def|instance|structure|inductive|abbrev)\b\s*(\S*)')


def sync():
    shutil.rmtree(SCRATCH, ignore_errors=True)
    os.makedirs(os.path.dirname(SCRATCH), exist_ok=True)
    subprocess.check_call(['cp', '-a', ROOT, SCRATCH])


def build(props):
    p = subprocess.run(['lake', 'build'] + ['Verif.Props.' + x for x in props], cwd=SCRATCH, stdout=subprocess.PIPE,
                       stderr=subprocess.STDOUT, text=True)
    errs = re.findall(r'^error: (Verif/\S+\.lean):(\d+):', p.stdout, re.M)
    return p.returncode, errs, p.stdout


def body_start(text):
    """Index of the `:=` that starts the proof, or of the first `|` of a proof by equations."""
    depth = 0
    i = 0
    while i < len(text):
        c = text[i]
        if c in '([{⟨':
            depth += 1
        elif c in ')]}⟩':
            depth -= 1
        elif depth == 0 and text.startswith(':=', i):
            return i
        elif depth == 0 and text.startswith('\n  | ', i):
            return i
        i += 1
    return None


def patch(fname, lines):
    path = os.path.join(SCRATCH, fname)
    src = open(path).read().split('\n')
    done, bad = [], []
    starts = [i for i, l in enumerate(src) if DECL.match(l)]
    targets = set()
    for ln in lines:
        before = [s for s in starts if s <= ln - 1]
        if before:
            targets.add(before[-1])
        else:
            bad.append('%s:%d' % (fname, ln))
    for s in sorted(targets, reverse=True):
        e = s + 1
        while e < len(src) and not START.match(src[e]):
            e += 1
        kind, name = DECL.match(src[s]).groups()
        block = '\n'.join(src[s:e])
        if kind == 'example':
            # remove the docstring as well
            b = s
            if src[b - 1].rstrip().endswith('-/'):
                while not src[b - 1].startswith('/--'):
                    b -= 1
                b -= 1
            src[b:e] = ['']
            done.append('example of %s line %d' % (fname, s + 1))
        elif kind in ('theorem', 'lemma'):
            k = body_start(block)
            if k is None or block[k:].strip() == ':= sorry':
                bad.append(name)
                continue
            src[s:e] = (block[:k] + ' := sorry').split('\n') + ['']
            done.append(name)
        else:
            bad.append(kind + ' ' + name)
    open(path, 'w').write('\n'.join(src))
    return done, bad


def axioms(props):
    names = []
    for x in props:
        ns = []
        for line in open(os.path.join(SCRATCH, 'Verif/Props/%s.lean' % x)):
            a = re.match(r'namespace (\S+)', line)
            if a:
                ns.append(a.group(1))
            a = re.match(r'end (\S+)', line)
            if a and ns and ns[-1] == a.group(1):
                ns.pop()
            a = re.match(r'(?:@\[[^\]]*\] )?theorem (C\d\d+_\S+)', line)
            if a:
                names.append('.'.join(ns + [a.group(1)]))
    f = os.path.join('/tmp/scratch', 'Ax.lean')
    with open(f, 'w') as out:
        out.write(''.join('import Verif.Props.%s\n' % x for x in props))
        out.write(''.join('#print axioms %s\n' % n for n in names))
    p = subprocess.run(['lake', 'env', 'lean', f], cwd=SCRATCH, stdout=subprocess.PIPE, stderr=subprocess.STDOUT, text=True)
    res = {}
    for m in re.finditer(r"'(\S+)' (depends on axioms: \[[^\]]*\]|does not depend)", p.stdout):
        res[m.group(1)] = 'sorryAx' in m.group(2)
    return res


def run(mu):
    sync()
    path = os.path.join(SCRATCH, mu['file'])
    s = open(path).read()
    if s.count(mu['old']) != 1:
        return {'edit': mu['edit'], 'error': 'pattern occurs %d times' % s.count(mu['old'])}
    open(path, 'w').write(s.replace(mu['old'], mu['new']))
    broken = []
    for _ in range(25):
        rc, errs, out = build(mu['props'])
        if rc == 0:
            break
        if not errs:
            return {'edit': mu['edit'], 'error': out[-600:]}
        byfile = {}
        for f, l in errs:
            byfile.setdefault(f, set()).add(int(l))
        for f, ls in byfile.items():
            done, bad = patch(f, ls)
            broken += done
            if bad:
                return {'edit': mu['edit'], 'error': 'not patchable: %s\n%s' % (bad, out[-1500:])}
    else:
        return {'edit': mu['edit'], 'error': 'too many rounds'}
    ax = axioms(mu['props'])
    short = lambda n: n.split('.')[-1]
    return {'definition': mu['definition'], 'file': mu['file'], 'edit': mu['edit'], 'claim': mu['claim'],
            'failed': [short(n) for n in ax if ax[n]], 'still_proved': [short(n) for n in ax if not ax[n]],
            'lemmas': broken}


if __name__ == '__main__':
    for line in open(sys.argv[1]):
        if line.strip():
            print(json.dumps(run(json.loads(line))), flush=True)
