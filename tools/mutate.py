#!/usr/bin/env python3
"""Mutation test driver (runs in a scratch copy, never in /verif/lean).

usage: mutate.py specs.json   -- a list of {file, definition, old, new, breaks, [tightened]}
For each mutant: apply to /tmp/mut, `lake build`, collect the declarations whose proofs fail; replace these proofs (in the scratch copy) by `sorry` and go on, so that
failures in the modules above are found as well; append to seeded/LOG.jsonl.
"""
import json, os, re, subprocess, sys, shutil
SRC, MUT, LOG = '/verif/lean', '/tmp/mut', '/verif/seeded/LOG.jsonl'
def sync():
    subprocess.run(['rsync', '-a', '--delete', SRC + '/', MUT + '/'], check=True) if shutil.which('rsync') else \
        (shutil.rmtree(MUT, ignore_errors=True), shutil.copytree(SRC, MUT, symlinks=True))
def decl_at(path, line):
    name = None
    for i, l in enumerate(open(path), 1):
        if i > line: break
        m = re.match(r'(?:@\[[^\]]*\]\s*)?(?:private |protected |noncomputable )*(theorem|def|example|instance|abbrev|structure|inductive)\s*([^\s:({\[]*)', l)
        if m: name = m.group(2) or m.group(1)
    return name
def build():
    r = subprocess.run(['lake', 'build'], cwd=MUT, capture_output=True, text=True)
    out = r.stdout + r.stderr
    fails = []
    for m in re.finditer(r'error: (Verif/[\w/]+\.lean):(\d+):\d+', out):
        d = decl_at(os.path.join(MUT, m.group(1)), int(m.group(2)))
        k = f"{m.group(1)[6:-5]}:{d}"
        if k not in fails: fails.append(k)
    blocked = [b for b in re.findall(r'^- (Verif[\w.]*)', out, re.M)]
    return r.returncode, fails
DECL = re.compile(r'^(?:@\[[^\]]*\]\s*)?(?:private |protected |noncomputable )*(theorem|def|example|instance|abbrev|structure|inductive)\b', re.M)
def admit(fails):
    """Replace the proofs of the failed theorems in the scratch copy by `sorry` and drop failed examples; the files changed, or None if a definition failed."""
    changed = {}
    for f in fails:
        mod, name = f.split(':', 1)
        p = os.path.join(MUT, 'Verif', mod + '.lean')
        text = open(p).read()
        for m in reversed(list(DECL.finditer(text))):
            head = re.match(r'(?:@\[[^\]]*\]\s*)?(?:private |protected |noncomputable )*(\w+)\s*([^\s:({\[]*)', text[m.start():])
            if (head.group(2) or head.group(1)) != name and not (name == 'example' and head.group(1) == 'example'): continue
            if head.group(1) not in ('theorem', 'example'): return None
            n = re.compile(r'^(?:/--|/-!|end\b|namespace\b|section\b|variable\b|open\b|@\[|private |protected |noncomputable |theorem|def|example|instance|abbrev|structure|inductive)', re.M).search(text, m.end())
            stop = n.start() if n else len(text)
            depth, i = 0, m.end()
            while i < stop:
                c = text[i]
                if c in '([{⟨⦃': depth += 1
                elif c in ')]}⟩⦄': depth -= 1
                elif depth == 0 and text.startswith(':=', i): break
                i += 1
            if i >= stop: return None
            changed.setdefault(p, None)
            text = text[:i] + ':= sorry\n\n' + text[stop:]
            if name != 'example': break
        open(p, 'w').write(text)
    return changed if changed else None
def full_name(mod, name):
    """The full name of a declaration of a module: the namespaces open where it is declared, and the name as written."""
    ns = []
    try: lines = open(os.path.join(SRC, 'Verif', mod + '.lean'))
    except OSError: return 'Flu.' + name
    for l in lines:
        m = re.match(r'(namespace|section|end)\b\s*(\S*)', l)
        if m:
            if m.group(1) == 'end': ns = ns[:-1]
            else: ns.append(m.group(2) if m.group(1) == 'namespace' else '')
        m = re.match(r'(?:@\[[^\]]*\]\s*)?(?:private |protected |noncomputable )*(?:theorem|def|instance|abbrev|structure|inductive)\s*([^\s:({\[]*)', l)
        if m and m.group(1) == name: return '.'.join([n for n in ns if n] + [name])
    return 'Flu.' + name
def dependents(fails):
    """Property theorems whose proofs use one of the failed declarations (from tools/deps.txt run on the unmutated project)."""
    names = {full_name(*f.split(':', 1)) for f in fails if not f.endswith(':example')}
    res = []
    for l in open('/tmp/deps.txt'):
        n, _, deps = l.rstrip('\n').split('\t')
        if {d.strip() for d in deps.strip('[]').split(',')} & names: res.append(n.replace('Flu.', ''))
    return sorted(res)
if sys.argv[1] == '--relog':
    rows = [json.loads(l) for l in open(LOG)]
    for r in rows: r['property_theorems_failed'] = dependents(r['theorems_failed'])
    open(LOG, 'w').write(''.join(json.dumps(r, ensure_ascii=False) + '\n' for r in rows)); sys.exit()
shutil.copy('/verif/tools/deps.txt', '/tmp/deps_tool.lean'); subprocess.run(['lake', 'env', 'lean', '/tmp/deps_tool.lean'], cwd=SRC)
specs = json.load(open(sys.argv[1]))
os.makedirs('/verif/seeded', exist_ok=True)
sync()
for sp in specs:
    p = os.path.join(MUT, sp['file'])
    orig = open(p).read()
    assert orig.count(sp['old']) >= 1, sp
    open(p, 'w').write(orig.replace(sp['old'], sp['new'], 1))
    rc, fails = build()
    first, allf, rounds, backup = rc == 0, list(fails), 0, {}
    while rc != 0 and fails and rounds < 25:
        for f in fails:
            q = os.path.join(MUT, 'Verif', f.split(':', 1)[0] + '.lean')
            backup.setdefault(q, open(q).read())
        if admit(fails) is None: break
        rounds += 1
        rc, fails = build()
        allf += [f for f in fails if f not in allf]
    for q, t in backup.items(): open(q, 'w').write(t)
    open(p, 'w').write(orig)
    fails = allf
    row = {'definition': sp['definition'], 'file': sp['file'], 'edit': f"{sp['old']}  ==>  {sp['new']}", 'claim_broken': sp['breaks'],
           'theorems_failed': fails, 'property_theorems_failed': dependents(fails), 'survived': first, 'whole_project_reached': rc == 0, 'theorems_tightened': sp.get('tightened', [])}
    print(json.dumps(row, ensure_ascii=False), flush=True)
    with open(LOG, 'a') as f: f.write(json.dumps(row, ensure_ascii=False) + '\n')
