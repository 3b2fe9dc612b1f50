#!/usr/bin/env python3
"""gen_mutants.py SEED N [FILE ...]: N random one-place edits in each model file, as input for mutate.py.
The edits are those of common mistakes: a comparison off by one or negated, a wrong constant, a forgotten +1, and/or mixed up, a flag
the wrong way, another error, something not appended."""
import json, os, random, re, sys
M = '/verif/lean/Verif/Model'
OPS = [(r' < ', ' ≤ '), (r' ≤ ', ' < '), (r' > ', ' ≥ '), (r' ≥ ', ' > '), (r' ≠ ', ' = '), (r'(?<=if )([^:=]*?) = ', None), (r' ∧ ', ' ∨ '), (r' ∨ ', ' ∧ '),
       (r' \|\| ', ' && '), (r' && ', ' || '), (r' == ', ' != '), (r' \+ 1\b', ''), (r' - 1\b', ''), (r'\btrue\b', 'false'), (r'\bfalse\b', 'true'),
       (r'0x[0-9A-F]+', 'hex'), (r'\.err \.\w+', 'err'), (r' \+\+ \[[^\]]*\]', ''), (r'\.take\b', '.drop'), (r'\.panic\b', '.err .other'), (r'isEmpty', 'length == 1'),
       (r'\.notExist\b', '.null'), (r'\bsome \.null\b', 'none'), (r'\.ok \.null\b', '.ok .notExist')]
def code_lines(s):
    """line numbers outside of comments"""
    out, depth = [], 0
    for i, l in enumerate(s.split('\n')):
        d = depth
        depth += l.count('/-') - l.count('-/')
        if d == 0 and depth == 0 and '/-' not in l and not re.match(r'\s*(import|open|namespace|end|deriving|termination_by|structure|inductive|variable|set_option)', l): out.append(i)
    return out
def main():
    rnd = random.Random(int(sys.argv[1])); n = int(sys.argv[2])
    files = sys.argv[3:] or sorted(os.listdir(M))
    res = []
    for f in files:
        s = open(f'{M}/{f}').read(); ls = s.split('\n'); cands = []
        name = '?'; names = []
        for l in ls:
            m = re.match(r'\s*(?:private )?(?:def|abbrev|instance)\s+(\S+)', l)
            if m: name = m.group(1)
            names.append(name)
        for i in code_lines(s):
            body = ls[i].split('--')[0]
            start = re.match(r'\s*(?:private )?(?:def|abbrev)\b.*?:=', body)
            lo = start.end() if start else (len(body) if re.match(r'\s*(?:private )?def\b', body) else 0)
            if re.match(r'\s*\|', body) and '=>' in body: lo = max(lo, body.index('=>') + 2)
            for pat, new in OPS:
                for m in re.finditer(pat, body):
                    if m.start() < lo: continue
                    if new is None: r = m.group(1) + ' ≠ '
                    elif new == 'hex':
                        w = len(m.group(0)) - 2; r = '0x%0*X' % (w, int(m.group(0), 16) ^ 1)
                    elif new == 'err': r = '.err .other' if m.group(0) != '.err .other' else '.err .notFound'
                    else: r = new
                    cands.append((i, m.start(), m.end(), r, pat))
        # one operator is not to dominate
        by = {}
        for c in cands: by.setdefault(c[4], []).append(c)
        pick, seen = [], set()
        ops = list(by); tries = 0
        while len(pick) < min(n, len(cands)) and tries < 500:
            tries += 1
            c = rnd.choice(by[rnd.choice(ops)])
            if c[:4] in seen: continue
            seen.add(c[:4]); pick.append(c)
        for k, (i, a, b, r, _) in enumerate(pick):
            old, new = ls[i], ls[i][:a] + r + ls[i][b:]
            # enough context to be unique
            lo = hi = i
            while s.count('\n'.join(ls[lo:hi + 1])) != 1: lo -= 1; hi += 1
            ctx = ls[lo:hi + 1]; ctx2 = ls[lo:i] + [new] + ls[i + 1:hi + 1]
            res.append({'id': f'{f[:-5]}-{sys.argv[1]}-{k}', 'definition': names[i], 'claim': f'random edit in {names[i]}', 'edits': [[f'Model/{f}', '\n'.join(ctx), '\n'.join(ctx2)]]})
    rnd.shuffle(res)
    json.dump(res, sys.stdout, ensure_ascii=False, indent=1)
main()
