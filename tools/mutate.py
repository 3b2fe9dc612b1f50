#!/usr/bin/env python3
"""Mutation tests: apply an edit to a scratch copy of the model, rebuild, and report which property theorems fall.
usage: mutate.py FILE.json [id ...]; FILE.json holds a list of {"id", "edits": [[file, old, new], ...], "definition", "claim"}.
Results are printed as JSON lines."""
import json, os, re, subprocess, sys, shutil
DEPS = r'''import Lean
import Verif
/-! Prints, for every constant of the project, the project constants it mentions (used by mutate.py to see which property theorems fall with a broken lemma). -/
open Lean
run_cmd do
  let env ← getEnv
  let inProj (n : Name) : Option Name := do
    let i ← env.getModuleIdxFor? n
    let m := env.header.moduleNames[i.toNat]!
    if (`Verif).isPrefixOf m then some m else none
  let mut out := #[]
  for (n, c) in env.constants.map₁ do
    if let some m := inProj n then
      let ds := c.getUsedConstantsAsSet.toList.filter fun d => (inProj d).isSome
      out := out.push s!"{m} {n} {" ".intercalate (ds.map toString)}"
  IO.println ("\n".intercalate out.toList)
'''
SRC, W = '/tmp/mut/src', '/tmp/mut/lean'
def sh(c, **k): return subprocess.run(c, shell=True, capture_output=True, text=True, **k)
os.makedirs(W, exist_ok=True)
def snapshot():
    """the sources as they are now, so that /verif may be edited meanwhile"""
    shutil.rmtree(SRC, ignore_errors=True)
    os.makedirs(SRC)
    sh(f'cd /verif && git archive HEAD lean | tar -x -C {SRC} --strip-components=1')
def sync():
    """make W equal to SRC without touching files that are already equal (so that lake rebuilds only what changed)"""
    for d in ('.', 'Verif', 'Verif/Model', 'Verif/Spec', 'Verif/Proofs', 'Verif/Props'):
        os.makedirs(f'{W}/{d}', exist_ok=True)
        names = [n for n in os.listdir(f'{SRC}/{d}') if os.path.isfile(f'{SRC}/{d}/{n}')]
        for n in os.listdir(f'{W}/{d}'):
            if os.path.isfile(f'{W}/{d}/{n}') and n not in names: os.remove(f'{W}/{d}/{n}')
        for n in names:
            a, b = f'{SRC}/{d}/{n}', f'{W}/{d}/{n}'
            if not os.path.exists(b) or open(a, 'rb').read() != open(b, 'rb').read(): shutil.copy(a, b)
def deps():
    p = '/tmp/mut/deps.txt'
    open('/tmp/mut/deps.lean', 'w').write(DEPS)
    out = sh(f'cd {W} && lake env lean /tmp/mut/deps.lean').stdout
    open(p, 'w').write(out)
    g, props = {}, []
    for l in out.splitlines():
        m, n, *r = l.split(' ')
        g[n] = r
        if m.startswith('Verif.Props'): props.append(n)
    d = {}
    for p in props:
        seen, todo = set(), [p]
        while todo:
            x = todo.pop()
            if x in seen: continue
            seen.add(x); todo += g.get(x, [])
        d[p] = seen
    return d
DECL = re.compile(r'^\s*(?:@\[[^\]]*\]\s*)?(?:private |protected |noncomputable )*(theorem|example|def|instance|inductive|structure|abbrev)\s*(\S*)')
def decl_at(path, line):
    ls = open(path).read().split('\n')
    for i in range(min(line, len(ls)) - 1, -1, -1):
        m = DECL.match(ls[i])
        if m: return m.group(2) if m.group(1) != 'example' else f'example@{os.path.basename(path)}:{i+1}'
    return '?'
def mates(path, line):
    """the declarations of the mutual block around a line"""
    ls = open(path).read().split('\n')
    i = line - 1
    while i >= 0 and ls[i].strip() != 'mutual' and ls[i].strip() != 'end': i -= 1
    if i < 0 or ls[i].strip() == 'end': return set()
    j = i
    while j < len(ls) and ls[j].strip() != 'end': j += 1
    return {m.group(2) for l in ls[i:j] for m in [DECL.match(l)] if m and m.group(1) != 'example'}
def main():
    ms = json.load(open(sys.argv[1])); want = set(sys.argv[2:])
    snapshot()
    sync()
    if not os.path.exists(W + '/.lake'): sh(f'cp -a /verif/lean/.lake {W}/.lake')
    sh(f'cd {W} && lake build')
    D = deps()
    for m in ms:
        if want and m['id'] not in want: continue
        sync()
        for f, old, new in m['edits']:
            p = f'{W}/Verif/{f}'
            s = open(p).read()
            assert s.count(old) == 1, (m['id'], f, old, s.count(old))
            open(p, 'w').write(s.replace(old, new))
        out = sh(f'cd {W} && timeout 2400 lake build 2>&1').stdout
        bad, bad_more = set(), set()
        for fm in re.finditer(r'^error: (Verif/\S+\.lean):(\d+):\d+', out, re.M):
            bad.add(decl_at(f'{W}/{fm.group(1)}', int(fm.group(2))))
        if any(e.startswith('error: Verif/Model/') for e in out.splitlines()):
            print(json.dumps({'id': m['id'], 'invalid': True, 'edit': ' ; '.join(f'{f}: {o!r} -> {n!r}' for f, o, n in m['edits'])}), flush=True)
            continue
        for fm in re.finditer(r'^error: (Verif/\S+\.lean):(\d+):\d+', out, re.M): bad_more |= mates(f'{W}/{fm.group(1)}', int(fm.group(2)))
        full = set()
        for b in bad | bad_more: full |= {b, 'JV.' + b, b.replace('_root_.', '')}
        fell = sorted(n for n, s in D.items() if (s & full))
        print(json.dumps({'id': m['id'], 'definition': m['definition'], 'edit': ' ; '.join(f'{f}: {o!r} -> {n!r}' for f, o, n in m['edits']), 'claim': m['claim'],
              'broken': sorted(bad), 'built': 'Build completed successfully' in out, 'theorems_failed': [n.replace('JV.', '') for n in fell if re.search(r'\.C\d\d', n)]}, ensure_ascii=False), flush=True)
main()
