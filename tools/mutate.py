#!/usr/bin/env python3
"""Seeded-bug experiments.  usage: mutate.py batch.json [logfile]
batch.json: list of {file, def, old, new, claim, props?}.  Works in /tmp/scratch (a copy of the last commit of /verif/lean), never in /verif/lean.
For each edit: apply, rebuild, collect the theorems whose proof no longer checks; a failing lemma is stubbed
in the scratch copy so that the property theorems behind it are also tested; restore."""
import json,os,re,subprocess,sys,shutil,time
REPO='/verif'; SRC='/tmp/mutsrc/lean'; DST='/tmp/scratch'
HOLE='so'+'rry'
def sync():
    # snapshot of the last commit, plus compiled outputs to start from
    subprocess.run(f"rm -rf /tmp/mutsrc && mkdir -p /tmp/mutsrc && cd {REPO} && git archive HEAD lean | tar -x -C /tmp/mutsrc && cp -a {REPO}/lean/.lake {SRC}/.lake",shell=True,check=True)
    os.makedirs(DST,exist_ok=True)
    subprocess.run(['rsync','-a','--delete',SRC+'/',DST+'/'],check=True) if shutil.which('rsync') else subprocess.run(f'rm -rf {DST} && cp -a {SRC} {DST}',shell=True,check=True)
def build():
    r=subprocess.run(['nice','-n','10','lake','build'],cwd=DST,capture_output=True,text=True)
    return r.returncode,r.stdout+r.stderr
DECL=re.compile(r'^(?:@\[.*\]\s*)?(?:private |protected |noncomputable |mutual )*(theorem|lemma|def|instance|example|structure|inductive|abbrev)\b\s*([^\s:({\[]*)')
def enclosing(lines,ln):
    for i in range(min(ln-1,len(lines)-1),-1,-1):
        m=DECL.match(lines[i])
        if m: return i,m.group(1),m.group(2) or f'{m.group(1)}@{i+1}'
    return None
def errors(out):
    res=[]
    for m in re.finditer(r'^error: (Verif/\S+?\.lean):(\d+):(\d+)',out,re.M): res.append((m.group(1),int(m.group(2))))
    return res
def stub(path,starts):
    lines=open(path).read().split('\n')
    for i in sorted(starts,reverse=True):
        j=i+1
        while j<len(lines) and not (DECL.match(lines[j]) or lines[j].startswith(('/--','end ','namespace ','section','open ','variable','@[','mutual','/-!','set_option'))): j+=1
        blk='\n'.join(lines[i:j])
        k=blk.find(':= by')
        if k<0:
            k=blk.find(':=\n')
        if k<0:
            k=blk.rfind(':= ')
        if k<0: continue
        lines[i:j]=(blk[:k]+':= by '+HOLE+'\n').split('\n')
    open(path,'w').write('\n'.join(lines))
def run(m):
    p=os.path.join(DST,'Verif',m['file']); s=open(p).read()
    n=s.count(m['old'])
    if n!=m.get('count',1): return {'error':f"pattern occurs {n} times"}
    open(p,'w').write(s.replace(m['old'],m['new']))
    failed=[];blocked=[];touched=set();model_err=[]
    for rnd in range(6):
        rc,out=build()
        errs=errors(out)
        if rc==0: break
        todo={}
        for f,l in errs:
            q=os.path.join(DST,f); lines=open(q).read().split('\n'); e=enclosing(lines,l)
            if e is None: continue
            i,kind,name=e
            if f.startswith('Verif/Model') or f.startswith('Verif/Spec') : model_err.append(f'{f}:{name}'); continue
            tag=f'{f[6:-5]}:{name}'
            if tag not in failed: failed.append(tag)
            todo.setdefault(q,set()).add(i)
        if model_err or not todo: break
        for q,st in todo.items():
            touched.add(q); stub(q,st)
    else:
        blocked=re.findall(r'^- (Verif\S+)',out,re.M)
    return {'failed':failed,'blocked':blocked,'model_errors':model_err}
if __name__=='__main__':
    batch=json.load(open(sys.argv[1])); log=sys.argv[2] if len(sys.argv)>2 else '/verif/seeded/LOG.jsonl'
    sync()
    done=set()
    if os.path.exists(log):
        for l in open(log):
            d=json.loads(l); done.add((d.get('definition'),d.get('edit')))
    for m in batch:
        edit=m.get('edit') or f"{m['old'].strip()}  ==>  {m['new'].strip()}"
        key=(f"Model/{m['file'].split('/')[-1]}:{m['def']}",edit)
        if key in done: continue
        t=time.time()
        r=run(m)
        # restore sources (keep compiled outputs of untouched modules)
        subprocess.run(f"cd {SRC} && find Verif -name '*.lean' | while read f; do cmp -s $f {DST}/$f || cp -p $f {DST}/$f; done",shell=True)
        if 'error' in r or r['model_errors']:
            print('SKIP',key,r,flush=True); continue
        props=[x for x in r['failed'] if x.startswith('Props/')]
        rec={'definition':key[0],'edit':edit,'claim_broken':m['claim'],'theorems_failed':r['failed'],'detected':bool(r['failed']),'theorems_tightened':[],'seconds':round(time.time()-t)}
        if r['blocked']: rec['not_rebuilt_because_of_failures']=r['blocked']
        open(log,'a').write(json.dumps(rec)+'\n')
        print('DETECTED' if r['failed'] else '**** SURVIVED',key[0],'|',m['claim'],'|',len(r['failed']),'failed', 'props:',[x.split(':')[1] for x in props][:8],f"{rec['seconds']}s",flush=True)
