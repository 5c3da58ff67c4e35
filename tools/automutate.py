#!/usr/bin/env python3
"""Automatic seeded bugs: one small edit per definition of the model that LOG.jsonl does not mention yet.
Usage: automutate.py SOURCE_LEAN_DIR SCRATCH_LEAN_DIR [seed] [only-file-regex].  A build is stopped at the first theorem that fails."""
import json,re,glob,os,random,shutil,subprocess,sys,signal,time
SRC,S=sys.argv[1],sys.argv[2]
rnd=random.Random(int(sys.argv[3]) if len(sys.argv)>3 else 1)
only=re.compile(sys.argv[4] if len(sys.argv)>4 else '.')
LOG='/verif/seeded/LOG.jsonl'
OPS=[(r' < ',' ≤ ','boundary < to ≤'),(r' ≤ ',' < ','boundary ≤ to <'),(r' \+ 1\b','','+ 1 dropped'),(r' - 1\b','','- 1 dropped'),(r' \+ 1\b',' + 2','+ 1 to + 2'),
 (r' > ',' ≥ ','boundary > to ≥'),(r' ≥ ',' > ','boundary ≥ to >'),(r'&&','||','and to or'),(r'\|\|','&&','or to and'),(r'∧','∨','and to or'),(r'∨','∧','or to and'),
 (r'\.left\b','.right','left to right'),(r'\.right\b','.left','right to left'),(r'\btrue\b','false','true to false'),(r'\bfalse\b','true','false to true'),
 (r' = ',' ≠ ','condition negated'),(r' ≠ ',' = ','condition negated'),(r' == ',' != ','condition negated'),(r' \+ ',' - ','+ to -'),(r' - ',' + ','- to +'),
 (r'(?<![\w.])0(?![\w.])','1','0 to 1'),(r'(?<![\w.])1(?![\w.])','0','1 to 0'),(r'(?<![\w.])2(?![\w.])','3','2 to 3'),
 (r'\.valueError','.typeError','wrong exception'),(r'\.indexError','.keyError','wrong exception'),(r'\.keyError','.valueError','wrong exception'),
 (r'\.none\b','.some 0','x'),(r' ++ ',None,None),(r'left := ','right := ','link swapped'),(r'right := ','left := ','link swapped'),(r'\.head\b','.tail','head to tail'),(r'\.tail\b','.head','tail to head'),
 (r'\.next\b','.prev','next to prev'),(r'\.prev\b','.next','prev to next'),(r'\.1\b','.2','projection'),(r'\.2\b','.1','projection'),(r'!','','negation dropped'),(r'\bmin\b','max','min to max'),(r'\bmax\b','min','max to min')]
def split_defs(s):
    out=[]
    for m in re.finditer(r"^(?:noncomputable )?def ([\w.'?]+)",s,re.M):
        e=re.search(r'\n(?=/-|def |structure |inductive |abbrev |instance |end |section|variable|namespace|theorem|open |noncomputable |mutual|deriving)',s[m.end():])
        out.append((m.group(1),m.start(),m.end()+(e.start() if e else len(s)-m.end())))
    return out
def cands(body):
    i=body.find(':=')
    j=re.search(r'\n  \| ',body)
    k=min([x for x in (i,j.start() if j else -1) if x>=0] or [0])
    head,b=body[:k],body[k:]
    res=[]
    for pat,new,desc in OPS:
        if new is None or desc=='x': continue
        for m in re.finditer(pat,b):
            if pat==' = ' and not re.search(r'\b(if|decide|∧|∨)\b',b[b.rfind('\n',0,m.start())+1:m.start()]): continue
            ln=b[b.rfind('\n',0,m.start())+1:(b.find('\n',m.end()) if b.find('\n',m.end())>=0 else len(b))].strip()
            res.append((head+b[:m.start()]+new+b[m.end():],desc+' in `'+ln[:110]+'`'))
    for m in re.finditer(r'\n +let (\w+) ← ([^\n]*\b\1\b[^\n]*)(?=\n)',b):
        res.append((head+b[:m.start()]+b[m.end():],'line dropped: `'+m.group(0).strip()[:110]+'`'))
    return res
def run(cmd,timeout):
    p=subprocess.Popen(cmd,shell=True,stdout=subprocess.PIPE,stderr=subprocess.STDOUT,text=True,preexec_fn=os.setsid)
    out=[];t0=time.time();err=False
    os.set_blocking(p.stdout.fileno(),True)
    import threading
    timer=threading.Timer(timeout,lambda: os.killpg(p.pid,signal.SIGKILL)); timer.start()
    for line in p.stdout:
        out.append(line)
        if re.match(r'error: Verif/(Props|Lemmas)',line) : err=True
        if err and re.match(r'(✖|✔|⚠|error: Lean exited)',line): 
            os.killpg(p.pid,signal.SIGKILL); break
    p.wait(); timer.cancel()
    return ''.join(out),p.returncode,err,time.time()-t0
def thm_at(path,line):
    ls=open(path).read().split('\n')
    for i in range(min(line,len(ls))-1,-1,-1):
        m=re.match(r'\s*(?:@\[[^\]]*\]\s*)?(?:private |protected |noncomputable )*(theorem|lemma|def|example|instance|structure)\b\s*(\S*)',ls[i])
        if m: return m.group(2) if m.group(1)!='example' else 'example@%d'%(i+1)
    return '?'
def props_of(mod,mods):
    bad={mod};ch=True
    while ch:
        ch=False
        for m,(q,im) in mods.items():
            if m not in bad and any(i in bad for i in im): bad.add(m);ch=True
    r=set()
    for m in bad:
        if m in mods and '.Props.' in m: r|=set(re.findall(r'^theorem (C\d+)_',open(mods[m][0]).read(),re.M))
    return sorted(r,key=lambda x:int(x[1:]))
def main():
    seen=set()
    for l in open(LOG):
        for d in re.split(r'[ ,/]+',json.loads(l)['definition']): seen.add(d.split('.')[-1])
    jobs=[]
    for f in sorted(glob.glob(SRC+'/Verif/Model/*.lean')):
        if not only.search(os.path.basename(f)): continue
        s=open(f).read()
        for name,a,b in split_defs(s):
            if name.split('.')[-1] not in seen: jobs.append((f,name,a,b))
    rnd.shuffle(jobs)
    batch={}
    if len(sys.argv)>5:
        jobs=[]
        for e in json.load(open(sys.argv[5])):
            f=SRC+'/Verif/'+e['file']; t=open(f).read()
            k=[m.start() for m in re.finditer(re.escape(e['old']),t)]
            if len(k)!=1 and e.get('nth') is None: print('SKIP (occurrences=%d)'%len(k),e['edit'],flush=True); continue
            a=k[e.get('nth') or 0]
            jobs.append((f,e['definition'],a,a+len(e['old']))); batch[len(jobs)-1]=e
    print(len(jobs),'definitions',flush=True)
    pristine=S+'.pristine'
    for idx,(f,name,a,b) in enumerate(jobs):
        s=open(f).read(); cs=cands(s[a:b]) if not batch else [(batch[idx]['new'],batch[idx]['edit'])]
        if not cs: print('NOEDIT',name,flush=True); continue
        rnd.shuffle(cs)
        done=False
        for new,desc in cs[:6]:
            subprocess.run(f'rm -rf {S}/.lake/build && cp -rp {pristine} {S}/.lake/build && rm -rf {S}/Verif && cp -rp {SRC}/Verif {S}/Verif && cp -p {SRC}/Verif.lean {S}/',shell=True)
            rel=os.path.relpath(f,SRC)
            open(S+'/'+rel,'w').write(s[:a]+new+s[b:])
            r=subprocess.run(f'cd {S} && timeout 200 lake env lean {rel}',shell=True,capture_output=True,text=True)
            if r.returncode!=0:
                if batch: print('MODEL DOES NOT COMPILE',name,desc,r.stdout[:300],flush=True)
                continue
            out,rc,err,dt=run(f'cd {S} && nice -n 5 lake build 2>&1',1700)
            mods={}
            for d,_,fs in os.walk(S+'/Verif'):
                for g in fs:
                    if g.endswith('.lean'):
                        q=os.path.join(d,g); mods[os.path.relpath(q,S)[:-5].replace('/','.')]=(q,re.findall(r'^import (Verif\S*)',open(q).read(),re.M))
            fails=[]
            fm=None
            for m in re.finditer(r'error: (Verif/\S+\.lean):(\d+):\d+:',out):
                t=thm_at(S+'/'+m.group(1),int(m.group(2))); fm=fm or m.group(1)
                if t not in fails: fails.append(t)
            modelerr = fm and '/Model/' in fm
            if modelerr: continue
            caught = bool(fails)
            if not caught and rc!=0: print('BUILD FAILED WITHOUT THEOREM',name,desc,out[-300:],flush=True); done=True; break
            claims=' '.join(props_of(fm[:-5].replace('/','.'),mods)) if fm else ''
            print('CAUGHT' if caught else '*** SURVIVED',os.path.basename(f),name,'|',desc,'|',fails[:3],'| %.0fs'%dt,flush=True)
            with open('/tmp/auto.jsonl','a') as o: o.write(json.dumps(dict(file=rel,definition=name,edit=desc,caught=caught,fails=fails,claims=claims,new=new),ensure_ascii=False)+'\n')
            if caught:
                with open(LOG,'a') as o: o.write(json.dumps({'definition':name,'edit':desc,'claim_broken':batch[idx]['claim'] if batch else 'the claims about this function: '+claims,'theorems_failed':fails[:8]+(['(build stopped at the first module with a failing theorem)']),'theorems_blocked_downstream':[],'theorems_tightened':[]},ensure_ascii=False)+'\n')
            done=True; break
        if not done: print('NOCOMPILE',name,len(cs),flush=True)
main()
