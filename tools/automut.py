#!/usr/bin/env python3
"""Mechanical mutants of model files; reports those under which every theorem still builds.

usage: automut.py out.jsonl Verif/Model/X.lean ...   (source tree from MUT_SRC, scratch copy in /tmp/amut)
A mutant is killed when a theorem or lemma fails to build; failing examples are removed and the build goes on.
"""
import json, os, re, signal, subprocess, sys, shutil
SRC = os.environ.get('MUT_SRC', '/verif/lean')
DST = os.environ.get('AMUT_DST', '/tmp/amut/lean')
DECL = re.compile(r'^(?:@\[[^\]]*\]\s*)?(?:private |protected |noncomputable )*(theorem|lemma|def|abbrev|instance|structure|inductive|example)\b\s*([^\s:({\[]*)')

def decls(path):
    return [(n, m.group(1), m.group(2)) for n, line in enumerate(open(path), 1) for m in [DECL.match(line)] if m]

def code_lines(text):
    """(line index, definition, code part) of the bodies of definitions"""
    out, depth, cur, body = [], 0, None, False
    for i, line in enumerate(text.split('\n')):
        s = line
        if depth == 0 and s.lstrip().startswith('/-'):
            depth = 1
        if depth:
            if '-/' in s: depth = 0
            continue
        m = DECL.match(s)
        if m:
            cur = m.group(2) if m.group(1) == 'def' else None
            body = False
        if cur is None: continue
        code = s.split(' --')[0]
        if not body:
            # skip the signature
            k = code.find(':=')
            if k >= 0:
                body = True
                out.append((i, cur, k + 2, len(code)))
            elif re.match(r'\s*\|', code):
                body = True
                out.append((i, cur, 0, len(code)))
            continue
        if code.strip().startswith(('deriving', 'termination_by', 'decreasing_by', 'end ', 'namespace', 'variable', 'open')): continue
        out.append((i, cur, 0, len(code)))
    return out

SUBS = [(r'\btrue\b', 'false'), (r'\bfalse\b', 'true'), (r' && ', ' || '), (r' \|\| ', ' && '),
        (r' ∧ ', ' ∨ '), (r' ∨ ', ' ∧ '),
        (r' < ', ' ≤ '), (r' ≤ ', ' < '), (r' > ', ' ≥ '), (r' ≥ ', ' > '), (r' = ', ' ≠ '), (r' ≠ ', ' = '), (r' == ', ' != '),
        (r' \+ 1\b', ''), (r' \+ 1\b', ' + 2'), (r' \+ (?!1\b)', ' - '), (r' - ', ' + '), (r' \* ', ' + '),
        (r'(?<![\w.])0(?![\w.])', '1'), (r'(?<![\w.])1(?![\w.])', '0'),
        (r'!(?=[\w(])', ''), (r'¬ ?', ''), (r'\bisSome\b', 'isNone'), (r'\bisNone\b', 'isSome'), (r'\bisEmpty\b', 'isEmpty.not'),
        (r'\bhead\?', 'getLast?'), (r'\.all\b', '.any'), (r'\.any\b', '.all'), (r'∈', '∉'), (r'∉', '∈'),
        (r'\bmin\b', 'max'), (r'\bmax\b', 'min'), (r'\.reverse\b', ''), (r'\bfilter fun', 'map fun')]

def mutants(text):
    lines = text.split('\n')
    seen = set()
    for i, d, a, b in code_lines(text):
        line = lines[i]
        seg = line[a:b]
        cands = []
        for pat, rep in SUBS:
            for m in re.finditer(pat, seg):
                cands.append(seg[:m.start()] + rep + seg[m.end():])
        # one field of a record update is left out
        for m in re.finditer(r'\bwith ', seg):
            rest = seg[m.end():]
            depth, parts, st = 0, [], 0
            for k, ch in enumerate(rest):
                if ch in '([{⟨': depth += 1
                elif ch in ')]}⟩':
                    if depth == 0:
                        parts.append((st, k)); break
                    depth -= 1
                elif ch == ',' and depth == 0:
                    parts.append((st, k)); st = k + 1
            else:
                parts = []
            if len(parts) > 1 and ':=' in rest:
                for p in range(len(parts)):
                    keep = [rest[x:y].strip() for q, (x, y) in enumerate(parts) if q != p]
                    cands.append(seg[:m.end()] + ', '.join(keep) + ' ' + rest[parts[-1][1]:])
            elif len(parts) == 1 and ':=' in rest:
                # the update is left out
                j = seg.rfind('{', 0, m.start())
                if j >= 0:
                    cands.append(seg[:j] + '(' + seg[j + 1:m.start()].strip() + ')' + rest[parts[0][1] + 1:])
        # a line of a record update is left out
        if re.match(r'\s+\w+ := [^{]*$', seg) and a == 0 and not seg.rstrip().endswith(('by', 'fun', '=>')):
            if '}' not in seg: cands.append(None)
        # if branches exchanged
        m = re.search(r'\bif (.*?) then ', seg)
        if m:
            cands.append(seg[:m.start()] + 'if ¬(' + m.group(1) + ') then ' + seg[m.end():])
        # appended at the other end
        for m in re.finditer(r'([\w.]+) \+\+ \[([^\[\]]*)\]', seg):
            cands.append(seg[:m.start()] + '[' + m.group(2) + '] ++ ' + m.group(1) + seg[m.end():])
            cands.append(seg[:m.start()] + m.group(1) + seg[m.end():])
        for c in cands:
            new = None if c is None else line[:a] + c + line[b:]
            if new == line or (i, new) in seen: continue
            seen.add((i, new))
            out = lines[:i] + ([] if new is None else [new]) + lines[i + 1:]
            yield i + 1, d, line.strip(), '(left out)' if new is None else new.strip(), '\n'.join(out)

def build():
    p = subprocess.Popen(['lake', 'build'], cwd=DST, stdout=subprocess.PIPE, stderr=subprocess.STDOUT, text=True, start_new_session=True)
    errs = []
    for line in p.stdout:
        m = re.match(r'error: (Verif/\S+?\.lean):(\d+):\d+', line)
        if m:
            path = DST + '/' + m.group(1)
            cur = None
            for n, kind, name in decls(path):
                if n <= int(m.group(2)): cur = (n, kind, name)
            errs.append((m.group(1), cur))
            if cur and cur[1] != 'example':
                os.killpg(p.pid, signal.SIGKILL)
                p.wait()
                return errs, -1
    p.wait()
    return errs, p.returncode

def drop_examples(errs):
    byf = {}
    for f, cur in errs: byf.setdefault(f, set()).add(cur[0])
    for f, ns in byf.items():
        path = DST + '/' + f
        lines = open(path).read().split('\n')
        ds = decls(path)
        for k in reversed(range(len(ds))):
            if ds[k][0] not in ns: continue
            n = ds[k][0]
            e = n
            while e < len(lines) and lines[e].strip() != '' : e += 1
            s = n - 1
            # the doc comment before it
            if s > 0 and lines[s - 1].rstrip().endswith('-/'):
                t = s - 1
                while not lines[t].lstrip().startswith('/--') and t > 0: t -= 1
                s = t
            del lines[s:e]
        open(path, 'w').write('\n'.join(lines))

def main():
    out = sys.argv[1]
    done = set()
    if os.path.exists(out):
        for l in open(out):
            r = json.loads(l); done.add((r['file'], r['line'], r['new']))
    for f in sys.argv[2:]:
        text = open(SRC + '/' + f).read()
        for ln, d, old, new, mtext in mutants(text):
            if (f, ln, new) in done: continue
            shutil.rmtree(DST, ignore_errors=True)
            os.makedirs(os.path.dirname(DST), exist_ok=True)
            subprocess.check_call(['cp', '-a', SRC, DST])
            open(DST + '/' + f, 'w').write(mtext)
            exs = 0
            for _ in range(12):
                errs, rc = build()
                if rc == 0: res = 'SURVIVED'; break
                bad = [(a, c) for a, c in errs if not c or c[1] != 'example']
                if bad:
                    a, c = bad[0]
                    res = 'invalid' if a == f or (c and c[1] not in ('theorem', 'lemma')) else 'killed ' + a + ':' + (c[2] if c else '?')
                    break
                if not errs: res = 'odd'; break
                exs += len(errs)
                drop_examples(errs)
            else:
                res = 'odd'
            with open(out, 'a') as o:
                o.write(json.dumps({'file': f, 'line': ln, 'definition': d, 'old': old, 'new': new, 'result': res, 'examples': exs}) + '\n')

if __name__ == '__main__':
    if sys.argv[1] == '--count':
        for f in sys.argv[2:]:
            ms = list(mutants(open(SRC + '/' + f).read()))
            print(f, len(ms))
            if os.environ.get('V'):
                for ln, d, old, new, _ in ms: print('  ', ln, d, '|', old, '=>', new)
    else: main()
