#!/usr/bin/env python3
"""Seeded-bug runner.  usage: mutate.py mutants.json [scratchdir]
Each mutant: {"file","definition","old","new","edit","claim","target"}.  Works in a scratch copy outside /verif,
applies the edit to the model, rebuilds the target module and appends one line to seeded/LOG.jsonl naming the
theorems in which the build broke."""
import json, sys, subprocess, os, re, shutil
muts = json.load(open(sys.argv[1])); scratch = sys.argv[2] if len(sys.argv) > 2 else '/tmp/mut'
subprocess.run('rm -rf %s; cp -rp /verif/lean %s' % (scratch, scratch), shell=True, check=True)
def encl(path, line):
    ls = open(path).read().split('\n')
    for i in range(line - 1, -1, -1):
        m = re.match(r'\s*(?:@\[[^\]]*\]\s*)?(?:private |protected |noncomputable )*(theorem|lemma|def|example|instance)\b\s*(\S*)', ls[i])
        if m: return (m.group(2) if m.group(1) in ('theorem', 'lemma', 'def') else m.group(1)) or 'example'
    return '?'
for m in muts:
    p = scratch + '/Verif/' + m['file']; s = open(p).read()
    if s.count(m['old']) < 1:
        print('NO MATCH', m['definition'], m['edit']); continue
    open(p, 'w').write(s.replace(m['old'], m['new'], 1))
    r = subprocess.run(['lake', 'build'] + m['target'].split(), cwd=scratch, capture_output=True, text=True)
    out = r.stdout + r.stderr
    failed = []
    for e in re.finditer(r'error: (Verif/[\w/]+\.lean):(\d+):', out):
        f = e.group(1); n = encl(scratch + '/' + f, int(e.group(2)))
        t = f[6:-5].replace('/', '.') + ':' + n
        if t not in failed: failed.append(t)
    open(p, 'w').write(s)
    ok = r.returncode == 0
    rec = {'definition': m['definition'], 'edit': m['edit'], 'claim': m['claim'],
           'theorems_failed': failed, 'theorems_tightened': [], 'survived': ok}
    print(('SURVIVED ' if ok else 'killed   ') + m['definition'] + ' | ' + m['edit'] + ' | ' + ', '.join(failed[:6]), flush=True)
    with open('/verif/seeded/LOG.jsonl', 'a') as g: g.write(json.dumps(rec, ensure_ascii=False) + '\n')
