#!/usr/bin/env python3
"""Apply seeded bugs to a scratch copy of the model and see which theorems fail.

usage: mutate.py mutations.json   (list of {file, definition, old, new, edit, claim})
Appends one line per mutation to seeded/LOG.jsonl.  A property theorem counts as failed if its
own proof breaks or if it uses (transitively, by name) a lemma whose proof breaks.
"""
import json, os, re, subprocess, sys, shutil
SRC = os.environ.get('MUT_SRC', '/verif/lean')
DST = '/tmp/mut/lean'
LOG = '/verif/seeded/LOG.jsonl'

def sync():
    os.makedirs('/tmp/mut', exist_ok=True)
    shutil.rmtree(DST, ignore_errors=True)
    subprocess.check_call(['cp', '-a', SRC, DST])

DECL = re.compile(r'^(?:@\[[^\]]*\]\s*)?(?:private |protected |noncomputable )*(theorem|lemma|def|abbrev|instance|structure|inductive|example)\b\s*([^\s:({\[]*)')

def decls(path):
    out = []
    for n, line in enumerate(open(path), 1):
        m = DECL.match(line)
        if m:
            out.append((n, m.group(1), m.group(2) or '(example)'))
    return out

def bodies():
    """name -> (module, text) for all theorems of Proof and Props"""
    res = {}
    for d, _, fs in os.walk(DST + '/Verif'):
        for f in fs:
            if not f.endswith('.lean'): continue
            p = os.path.join(d, f)
            lines = open(p).read().split('\n')
            ds = decls(p)
            for i, (n, kind, name) in enumerate(ds):
                end = ds[i + 1][0] - 1 if i + 1 < len(ds) else len(lines)
                if kind in ('theorem', 'lemma'):
                    res.setdefault((p, name), '\n'.join(lines[n - 1:end]))
    return res

def imports(p):
    seen, todo = set(), [p]
    while todo:
        q = todo.pop()
        if q in seen: continue
        seen.add(q)
        for m in re.findall(r'^import (Verif\.\S+)', open(q).read(), re.M):
            r = DST + '/' + m.replace('.', '/') + '.lean'
            if os.path.exists(r): todo.append(r)
    return seen

def run(mut):
    sync()
    p = DST + '/' + mut['file']
    s = open(p).read()
    assert s.count(mut['old']) >= 1, ('pattern not found', mut)
    if 'count' in mut:
        assert s.count(mut['old']) == mut['count'], (s.count(mut['old']), mut)
    else:
        assert s.count(mut['old']) == 1, (s.count(mut['old']), mut)
    open(p, 'w').write(s.replace(mut['old'], mut['new']))
    failed = set()
    ex = 0
    for _ in range(8):
        r = subprocess.run(['lake', 'build'], cwd=DST, capture_output=True, text=True)
        out = r.stdout + r.stderr
        model, new, exs = [], set(), {}
        for f, ln in re.findall(r'error: (Verif/\S+?\.lean):(\d+):\d+', out):
            path = DST + '/' + f
            cur = None
            for n, kind, name in decls(path):
                if n <= int(ln): cur = (n, kind, name)
            if cur is None: continue
            if cur[1] in ('theorem', 'lemma'): new.add((path, cur[2]))
            elif cur[1] == 'example': exs.setdefault(path, set()).add(cur[0])
            else: model.append(f + ':' + cur[2])
        if model:
            return {'model_error': model, 'out': out[-1500:]}
        failed |= new
        ex += sum(len(v) for v in exs.values())
        if not (new or exs): break
        # go on without the broken proofs, to see what else breaks
        for path in {q for q, _ in new} | set(exs):
            lines = open(path).read().split('\n')
            ds = decls(path)
            for k in reversed(range(len(ds))):
                n, kind, name = ds[k]
                end = ds[k + 1][0] - 1 if k + 1 < len(ds) else len(lines)
                if (path, name) in new and kind in ('theorem', 'lemma') or n in exs.get(path, ()):
                    text = '\n'.join(lines[n - 1:end])
                    depth, pos = 0, None
                    for a, ch in enumerate(text):
                        if ch in '([{⟨': depth += 1
                        elif ch in ')]}⟩': depth -= 1
                        elif depth == 0 and text.startswith(':=', a):
                            pos = a; break
                    if pos is None:      # defined by pattern matching
                        return {'model_error': [name + ' (pattern-matching proof)'], 'out': ''}
                    # keep what follows the proof (doc comment of the next declaration, `end`, ...)
                    rest = text[pos:]
                    cut = re.search(r'\n\n', rest)
                    tail = rest[cut.start():] if cut else ''
                    while cut and re.match(r'\n\n[ \t]', tail):
                        cut = re.compile(r'\n\n').search(rest, cut.end())
                        tail = rest[cut.start():] if cut else ''
                    lines[n - 1:end] = (text[:pos] + ':= by sorry' + tail).split('\n')
            open(path, 'w').write('\n'.join(lines))
    b = bodies()
    changed = True
    imp = {}
    while changed:
        changed = False
        names = {}
        for (q, n) in failed: names.setdefault(n.split('.')[-1], set()).add(q)
        for (q, n), text in b.items():
            if (q, n) in failed: continue
            if q not in imp: imp[q] = imports(q)
            toks = set(re.findall(r"[A-Za-z_][A-Za-z0-9_'!?₀-₉]*", text))
            for t in toks & set(names):
                if t != n and names[t] & imp[q]:
                    failed.add((q, n)); changed = True; break
    props = sorted(n for (q, n) in failed if re.match(r'C\d\d', n))
    lemmas = sorted(n for (q, n) in failed if not re.match(r'C\d\d', n))
    return {'props': props, 'lemmas': lemmas, 'examples': ex, 'rc': r.returncode}

if __name__ == '__main__':
    muts = json.load(open(sys.argv[1]))
    only = set(sys.argv[2:])
    for i, m in enumerate(muts):
        if only and str(i) not in only: continue
        res = run(m)
        if 'model_error' in res:
            print(i, 'MODEL DOES NOT COMPILE', res['model_error']); print(res['out'][-600:]); continue
        hit = [t for t in res['props'] if any(t.startswith(c) for c in m['claims'])]
        print(i, m['definition'], '|', m['edit'], '| failed:', ', '.join(res['props']) or '(none)',
              '| lemmas', len(res['lemmas']), '| examples', res['examples'],
              '' if hit else '   <<<<<< SURVIVED for ' + str(m['claims']))
        if not m.get('nolog'):
            with open(LOG, 'a') as f:
                f.write(json.dumps({'definition': m['definition'], 'file': m['file'], 'edit': m['edit'],
                    'claim': m['claim'], 'failed': res['props'],
                    'failed_lemmas': res['lemmas'][:8], 'tightened': m.get('tightened', [])}) + '\n')
        sys.stdout.flush()
