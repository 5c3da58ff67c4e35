#!/usr/bin/env python3
"""Seeded-bug harness.  Usage: mutate.py batch.json
batch: list of {file, old, new, definition, edit, claim}.  Works in /tmp/scratch/lean, appends to /verif/seeded/LOG.jsonl."""
import json,subprocess,sys,re,os,shutil
S='/tmp/scratch/lean'
def sync():
    subprocess.run(['rsync','-a','--delete','/verif/lean/Verif/',S+'/Verif/']) if shutil.which('rsync') else subprocess.run(f'rm -rf {S}/Verif && cp -rp /verif/lean/Verif {S}/Verif && cp -p /verif/lean/Verif.lean {S}/',shell=True)
    subprocess.run(['cp','-p','/verif/lean/Verif.lean',S+'/Verif.lean'])
def thm_at(path,line):
    ls=open(path).read().split('\n')
    for i in range(min(line,len(ls))-1,-1,-1):
        m=re.match(r'\s*(?:@\[[^\]]*\]\s*)?(?:private |protected |noncomputable )*(theorem|lemma|def|example|instance|structure)\b\s*(\S*)',ls[i])
        if m: return (m.group(2) if m.group(1)!='example' else 'example@%d'%(i+1)), m.group(1)
    return '?','?'
def main():
    batch=json.load(open(sys.argv[1]))
    for b in batch:
        sync()
        p=S+'/Verif/'+b['file']
        s=open(p).read()
        n=s.count(b['old'])
        if n!=1 and not b.get('all'):
            if b.get('nth') is None:
                print('SKIP (occurrences=%d):'%n,b['edit']); continue
        if b.get('all'): s=s.replace(b['old'],b['new'])
        elif b.get('nth') is not None:
            parts=s.split(b['old']); k=b['nth']
            s=b['old'].join(parts[:k+1])+b['new']+b['old'].join(parts[k+1:])
        else: s=s.replace(b['old'],b['new'])
        open(p,'w').write(s)
        r=subprocess.run('cd %s && timeout 1500 lake build 2>&1'%S,shell=True,capture_output=True,text=True)
        out=r.stdout
        fails=[]; kinds={}
        for m in re.finditer(r'error: (Verif/\S+\.lean):(\d+):\d+:',out):
            t,k=thm_at(S+'/'+m.group(1),int(m.group(2)))
            kinds[t]=k
            if t not in fails: fails.append(t)
        failedmods=re.findall(r'^- (Verif\S*)',out,re.M)
        built=set(re.findall(r'Built (Verif\S*)',out))
        # modules blocked: those importing failed ones (transitively)
        mods={}
        for d,_,fs in os.walk(S+'/Verif'):
            for f in fs:
                if f.endswith('.lean'):
                    q=os.path.join(d,f); name=os.path.relpath(q,S)[:-5].replace('/','.')
                    mods[name]=(q,re.findall(r'^import (Verif\S*)',open(q).read(),re.M))
        bad=set(failedmods); ch=True
        while ch:
            ch=False
            for m,(q,im) in mods.items():
                if m not in bad and any(i in bad for i in im): bad.add(m); ch=True
        blocked=[]
        for m in sorted(bad-set(failedmods)):
            if '.Props.' in m:
                blocked+= re.findall(r'^theorem (C\d+_\S+)',open(mods[m][0]).read(),re.M)
        ok = r.returncode!=0
        modeldefbreak = any('.Model.' in m for m in failedmods)
        rec={'definition':b['definition'],'edit':b['edit'],'claim_broken':b['claim'],'theorems_failed':fails,'theorems_blocked_downstream':blocked,'theorems_tightened':b.get('tightened',[])}
        print(('CAUGHT' if ok else '*** SURVIVED'),('(MODEL DID NOT COMPILE)' if modeldefbreak else ''),b['definition'],'|',b['edit'],'|',fails[:6],'| blocked',len(blocked),flush=True)
        if modeldefbreak: continue
        rec['caught']=ok
        open('/verif/seeded/LOG.jsonl','a').write(json.dumps(rec)+'\n')
    sync()
main()
