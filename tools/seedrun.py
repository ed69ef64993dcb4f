#!/usr/bin/env python3
"""Apply one edit to a scratch copy of the Lean project, rebuild, and log which theorems fail.
usage: seedrun.py spec.json   (list of {file, definition, old, new, edit, claim, props})"""
import json, os, re, subprocess, sys, shutil
SRC='/verif/lean'; BASE='/tmp/seed/base'; DST='/tmp/seed/lean'; LOG='/verif/seeded/LOG.jsonl'
def sync():
    subprocess.run(f'rm -rf {DST} && cp -a {BASE} {DST}',shell=True,check=True)
def enclosing(path,line):
    L=open(path).read().split('\n')
    for i in range(min(line,len(L))-1,-1,-1):
        m=re.match(r'^(?:@\[[^\]]*\]\s*)?(?:noncomputable |private |protected )*(theorem|lemma|def|instance|example|abbrev|structure)\b\s*(\S*)',L[i])
        if m: return (m.group(2) if m.group(1)!='example' else 'example@%d'%(i+1))
    return '?'
os.makedirs('/tmp/seed',exist_ok=True)
subprocess.run(f'rm -rf {BASE} && cp -a {SRC} {BASE}',shell=True,check=True)
for e in json.load(open(sys.argv[1])):
    sync()
    p=os.path.join(DST,e['file']); s=open(p).read()
    assert s.count(e['old'])>=1,('not found',e['definition'],e['old'])
    s=s.replace(e['old'],e['new'],1); open(p,'w').write(s)
    r=subprocess.run('lake build 2>&1',shell=True,cwd=DST,capture_output=True,text=True)
    errs=re.findall(r'^error: (Verif/\S+?\.lean):(\d+):',r.stdout,re.M)
    failed=[]
    for f,l in errs:
        n=f.replace('/','.')[:-5]+':'+enclosing(os.path.join(DST,f),int(l))
        if n not in failed: failed.append(n)
    fm=re.findall(r'^- (Verif\S*)',r.stdout,re.M)
    # property modules that import a failed module
    rec=dict(definition=e['definition'],edit=e['edit'],claim=e['claim'],theorems_failed=failed,
      theorems_tightened=e.get('tightened',[]))
    print(json.dumps(rec),r.returncode)
    if r.returncode!=0: open(LOG,'a').write(json.dumps(rec)+'\n')
    else: print('!!!!! SURVIVED')
