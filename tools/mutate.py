#!/usr/bin/env python3
"""mutate.py BATCH.py [START]: run seeded-bug experiments in /tmp/mut (outside /verif).

BATCH.py defines MUTS, a list of (id, file, definition, old, new, claims, description[, extra edits]). The extra edits keep
lemmas that merely unfold the edited definition in step with it. For each one the
project is copied, the edit applied and the project rebuilt; proofs that fail are replaced (in the scratch copy
only) by a placeholder so that the rest can be checked, until everything builds; the theorems that then depend
on a placeholder are the ones that failed. One JSON line per experiment goes to /verif/seeded/LOG.jsonl."""
import sys, os, re, json, subprocess, shutil, importlib.util, time
SRC = '/verif/lean'
W = '/tmp/mut/lean'
LOG = '/verif/seeded/LOG.jsonl'
PLACE = 'sor' + 'ry'
DECL = re.compile(r'^(?:@\[[^\]]*\]\s*)?(?:private |protected |noncomputable |nonrec )*(theorem|lemma|example|def|instance|structure|inductive|abbrev)\b\s*([^\s:({\[]*)')

def sh(cmd, cwd=W, timeout=5400):
    r = subprocess.run(cmd, cwd=cwd, shell=True, capture_output=True, text=True, timeout=timeout)
    return r.stdout + r.stderr

def decls(lines):
    """list of (start, end, kind, name)"""
    starts = [(i, DECL.match(l)) for i, l in enumerate(lines)]
    starts = [(i, m.group(1), m.group(2)) for i, m in starts if m]
    out = []
    for k, (i, kind, name) in enumerate(starts):
        end = starts[k + 1][0] if k + 1 < len(starts) else len(lines)
        # stop at section/namespace/doc comments
        for j in range(i + 1, end):
            if re.match(r'^(/-|end\b|section\b|namespace\b|open\b|variable\b|local\b|omit\b|set_option\b|include\b|@\[)', lines[j]):
                end = j
                break
        out.append((i, end, kind, name))
    return out

def gut(path, line):
    lines = open(path).read().split('\n')
    for (i, end, kind, name) in decls(lines):
        if i <= line - 1 < end:
            if kind not in ('theorem', 'lemma', 'example', 'instance', 'def'):
                return None
            body = '\n'.join(lines[i:end])
            if 'decreasing_by' in body and kind == 'def':
                k = body.index('decreasing_by')
                new = body[:k] + 'decreasing_by all_goals ' + PLACE
            else:
                if kind == 'def':
                    return None
                # find end of statement: first ':= by' / ':=' at bracket depth 0
                depth = 0; k = None
                for p in range(len(body) - 1):
                    ch = body[p]
                    if ch in '([{⟨': depth += 1
                    elif ch in ')]}⟩': depth -= 1
                    elif depth == 0 and body.startswith(' where\n', p):
                        k = p + 1; break
                    elif depth == 0 and body.startswith(':=', p):
                        # skip 'let x := ..' inside the statement
                        ln = body[:p].split('\n')[-1]
                        if re.match(r'\s*(let|have)\b', ln): continue
                        k = p; break
                pm = re.search(r'\n  \| ', body)
                if k is not None and pm and pm.start() < k:
                    k = None
                if k is None:
                    # pattern-matching theorem: '  | ...'
                    m = re.search(r'\n  \| ', body)
                    if not m: return None
                    k = m.start()
                    new = body[:k] + ' := by intros; ' + PLACE
                else:
                    new = body[:k] + ':= by ' + PLACE
            m2 = re.search(r'\n*$', '\n'.join(lines[i:end])).group(0)
            lines[i:end] = (new + m2).split('\n')
            open(path, 'w').write('\n'.join(lines))
            return f'{kind} {name}'
    return None

def errors(out):
    res = {}
    for m in re.finditer(r'error: (?:\./)?(Verif/[A-Za-z0-9]+\.lean):(\d+):\d+:', out):
        res.setdefault(m.group(1), set()).add(int(m.group(2)))
    return res

def run(mut):
    mid, file, definition, old, new, claims, desc = mut[:7]
    extra = mut[7] if len(mut) > 7 else []
    sh('rm -rf /tmp/mut/lean; cp -a /tmp/mutsrc /tmp/mut/lean', cwd='/tmp')
    p = f'{W}/Verif/{file}.lean'
    s = open(p).read()
    assert s.count(old) >= 1, (mid, 'pattern not found', old)
    s = s.replace(old, new, 1)
    open(p, 'w').write(s)
    for (f2, o2, n2) in extra:
        p2 = f'{W}/Verif/{f2}.lean'
        s2 = open(p2).read()
        assert o2 in s2, (mid, 'extra pattern not found', o2)
        open(p2, 'w').write(s2.replace(o2, n2))
    failed = []
    t0 = time.time()
    for rnd in range(40):
        out = sh('lake build 2>&1')
        errs = errors(out)
        if not errs:
            if 'Build completed' not in out:
                return dict(id=mid, note='build problem', out=out[-2000:])
            break
        progress = False
        for f, ls in errs.items():
            # gut from the bottom so that line numbers stay valid
            for l in sorted(ls, reverse=True):
                g = gut(f'{W}/{f}', l)
                if g:
                    failed.append(f'{f}: {g}'); progress = True
        if not progress:
            return dict(id=mid, note='cannot continue', errors={k: sorted(v) for k, v in errs.items()}, failed=failed, out=out[-3000:])
    else:
        return dict(id=mid, note='did not converge', failed=failed[-3:])
    # which claim theorems depend on a placeholder
    names = []
    for f in sorted(os.listdir(W + '/Verif')):
        for l in open(f'{W}/Verif/{f}'):
            m = re.match(r'^(?:private |protected )?theorem (C\d\d+_\S+)', l)
            if m: names.append(m.group(1))
    chk = 'import Verif\nopen Simphox\n' + '\n'.join(f'#print axioms {n}' for n in names)
    open(W + '/Chk.lean', 'w').write(chk)
    out = sh('lake env lean Chk.lean')
    bad = sorted(set(re.findall(r"'(?:Simphox\.)?(C\d\d+_[^']*)' depends on axioms: \[[^\]]*" + PLACE + 'Ax', out)))
    os.remove(W + '/Chk.lean')
    hit = sorted(c for c in claims if any(b.startswith(c + '_') for b in bad))
    return dict(id=mid, definition=f'{file}.{definition}', edit=desc, old=old, new=new, claims_broken=claims,
                proofs_failed=failed, theorems_failed=bad, caught=(hit == sorted(claims)), claims_caught=hit,
                theorems_tightened=[], seconds=round(time.time() - t0))

if __name__ == '__main__':
    spec = importlib.util.spec_from_file_location('batch', sys.argv[1])
    b = importlib.util.module_from_spec(spec); spec.loader.exec_module(b)
    only = set(sys.argv[2:])
    done = set()
    if os.path.exists(LOG):
        done = {json.loads(l)['id'] for l in open(LOG)}
    os.makedirs('/tmp/mut', exist_ok=True)
    sh('rm -rf /tmp/mutsrc; cp -a /verif/lean /tmp/mutsrc', cwd='/tmp')
    for m in b.MUTS:
        if m[0] in done or (only and m[0] not in only): continue
        try:
            r = run(m)
        except Exception as e:
            r = dict(id=m[0], note=repr(e))
        if 'note' in r:
            open('/tmp/mut/problems.jsonl', 'a').write(json.dumps(r, ensure_ascii=False) + '\n')
            print('PROBLEM', r['id'], r['note'], r.get('errors'), flush=True)
        else:
            open(LOG, 'a').write(json.dumps(r, ensure_ascii=False) + '\n')
            print(r['id'], 'caught' if r['caught'] else 'MISSED', r['claims_broken'], r['claims_caught'], len(r['theorems_failed']), r['seconds'], flush=True)
