"""Run wrong-program experiments.

usage: seed.py MUTANTS.json RESULTS.jsonl

Each mutant {"file", "old", "new", "definition", "edit", "claim"} is applied to a scratch copy of
lean/. The project is then rebuilt. A declaration that fails has its proof replaced by `sorry` (or is
removed when even its statement fails) so that the rest of the project can be checked; at the
end a property theorem counts as failed when it is gone or depends on `sorryAx`.
"""
import json, os, re, subprocess, sys, shutil
ROOT = os.environ.get('SEED_SRC') or os.path.dirname(os.path.dirname(os.path.abspath(__file__)))
W = os.environ.get('SEED_DIR', '/tmp/scratch')
START = re.compile(r'^(?:@\[[^\]]*\] )?(?:private |protected |noncomputable )*(theorem|lemma|example|def|instance|abbrev)\b')

def sh(cmd, cwd):
    return subprocess.run(cmd, shell=True, cwd=cwd, capture_output=True, text=True)

def reset():
    os.makedirs(W, exist_ok=True)
    shutil.rmtree(W + '/lean', ignore_errors=True)
    shutil.copytree(ROOT + '/lean', W + '/lean', symlinks=True)

def find_decl(lines, ln):
    """0-based start and end of the declaration containing 1-based line ln"""
    i = min(ln - 1, len(lines) - 1)
    while i >= 0 and not START.match(lines[i]): i -= 1
    if i < 0: return None
    j = i + 1
    while j < len(lines) and not (lines[j] and not lines[j][0].isspace() and not lines[j].startswith('|')): j += 1
    return i, j

def split_at_assign(txt):
    depth = 0
    k = 0
    while k < len(txt):
        c = txt[k]
        if c in '([{⟨⦃': depth += 1
        elif c in ')]}⟩⦄': depth -= 1
        elif depth == 0 and txt.startswith(':=', k) : return k
        k += 1
    return None

def patch(path, ln, seen):
    lines = open(path).read().split('\n')
    d = find_decl(lines, ln)
    if d is None: return 'nodecl', None
    i, j = d
    head = lines[i]
    m = re.match(r'.*?\b(?:theorem|lemma|def|instance|abbrev|example)\b\s*([^\s({\[:]*)', head)
    name = (m.group(1) if m else '') or 'example@%d' % (i + 1)
    txt = '\n'.join(lines[i:j])
    k = split_at_assign(txt)
    key = (path, name)
    iscode = START.match(head).group(1) in ('theorem', 'lemma')
    if iscode and key not in seen and k is not None and 'sorry' not in txt[k:]:
        seen.add(key)
        new = txt[:k] + ':= by sorry'
        lines[i:j] = new.split('\n') + ['']
    else:
        # remove, with doc comment and 'open .. in' prefixes above it
        s = i
        while s > 0 and (lines[s-1].startswith('open ') and lines[s-1].rstrip().endswith(' in') or lines[s-1].startswith('set_option') and lines[s-1].rstrip().endswith(' in')): s -= 1
        if s > 0 and lines[s-1].rstrip().endswith('-/'):
            t = s - 1
            while not lines[t].startswith('/--') and t > 0: t -= 1
            if lines[t].startswith('/--'): s = t
        while s > 0 and (lines[s-1].startswith('open ') and lines[s-1].rstrip().endswith(' in')): s -= 1
        lines[s:j] = ['']
    open(path, 'w').write('\n'.join(lines))
    return name, head

def run(mut):
    reset()
    L = W + '/lean'
    f = L + '/Verif/' + mut['file']
    s = open(f).read()
    if s.count(mut['old']) != mut.get('count', 1):
        return dict(error='old text occurs %d times' % s.count(mut['old']))
    open(f, 'w').write(s.replace(mut['old'], mut['new']))
    seen, failed = set(), []
    model = 'Verif/' + mut['file']
    for it in range(60):
        r = sh('nice -n 10 lake build', L)
        errs = re.findall(r'^error: (Verif/[\w/]+\.lean):(\d+):\d+', r.stdout + r.stderr, re.M)
        if not errs: 
            if r.returncode != 0: return dict(error=(r.stdout + r.stderr)[-1500:], failed=failed)
            break
        if any(e[0] == model and it == 0 and '/Model/' in model for e in errs):
            return dict(error='model does not compile: ' + (r.stdout + r.stderr)[-1500:])
        byfile = {}
        for p, ln in errs: byfile.setdefault(p, set()).add(int(ln))
        for p, lns in byfile.items():
            # bottom up so that line numbers stay valid; one patch per declaration
            done = set()
            lines = open(L + '/' + p).read().split('\n')
            starts = sorted({find_decl(lines, ln)[0] for ln in lns if find_decl(lines, ln)}, reverse=True)
            for st in starts:
                n, _ = patch(L + '/' + p, st + 1, seen)
                failed.append(p.replace('Verif/', '').replace('.lean', '') + ':' + n)
    # audit
    names = []
    for c in json.load(open(ROOT + '/MANIFEST.json'))['claims']: names += c['theorems']
    open(L + '/audit.lean', 'w').write('import Verif\n' + '\n'.join('#print axioms ' + n for n in names))
    r = sh('lake env lean audit.lean', L)
    out = r.stdout + r.stderr
    bad = []
    for n in names:
        m = re.search(r"'" + re.escape(n) + r"' (does not depend|depends on axioms: \[([^\]]*)\])", out)
        if not m or 'sorryAx' in m.group(0): bad.append(n.replace('RS.', ''))
    return dict(broken_declarations=failed, theorems_failed=bad)

if __name__ == '__main__':
    muts = json.load(open(sys.argv[1]))
    for m in muts:
        res = run(m)
        with open(sys.argv[2], 'a') as o:
            o.write(json.dumps({**m, **res}) + '\n')
        print(m['definition'], '|', m['edit'], '->', res.get('error', '')[:300], len(res.get('theorems_failed', [])), flush=True)
