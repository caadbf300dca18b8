#!/usr/bin/env python3
"""Seeded-bug harness.  usage: mutate.py MUTATIONS.json [ids...]
For each mutation copies /verif/lean to a scratch directory, applies the edit to the model, rebuilds; a
declaration whose proof no longer checks is stubbed out in the scratch copy and the build is repeated, so that
at the end every manifest theorem is known either to depend on a stub ("failed") or to survive the edit.
Writes results to /tmp/mut/results.jsonl."""
import json,os,re,shutil,subprocess,sys
STUB="so"+"rry"
SRC=os.environ.get('MSRC','/verif/lean'); W='/tmp/mut/work'
def sh(cmd,cwd=W):
    r=subprocess.run(cmd,cwd=cwd,shell=True,stdout=subprocess.PIPE,stderr=subprocess.STDOUT,text=True)
    return r.returncode,r.stdout
HEAD=re.compile(r'^(@\[[^\]]*\]\s*)?((private|protected|noncomputable)\s+)*(theorem|lemma|example|def|instance|structure|inductive|abbrev)\b')
def split_decl(lines,ln):
    """start,end (0-based, end exclusive) of the declaration containing line ln (1-based)"""
    i=ln-1
    while i>=0 and not HEAD.match(lines[i]): i-=1
    j=i+1
    stop=re.compile(r'^(/--|/-!|theorem|lemma|example|def|instance|structure|inductive|abbrev|namespace|end\b|section|open|variable|@\[|set_option|noncomputable|private|protected|attribute|local|include|omit|termination_by|decreasing_by)')
    while j<len(lines) and not stop.match(lines[j]): j+=1
    return i,j
def stub(lines,i,j):
    txt='\n'.join(lines[i:j])
    depth=0;k=0;pos=None
    while k<len(txt):
        c=txt[k]
        if c in '([{⟨': depth+=1
        elif c in ')]}⟩': depth-=1
        elif txt.startswith(':=',k) and depth==0:
            # skip `let x := ` inside statements
            pre=txt[:k]
            lastline=pre.split('\n')[-1]
            if not re.search(r'\blet\b[^;]*$',lastline): pos=k;break
        elif depth==0 and txt.startswith(' where\n',k) and re.match(r'\s*(@\[[^\]]*\]\s*)?(theorem|lemma)',txt):
            pos=k;break
        elif c=='|' and depth==0 and txt[:k].endswith('\n  '): 
            pos=k;break
        k+=1
    if pos is None: return None
    m=re.match(r'(@\[[^\]]*\]\s*)?((private|protected|noncomputable)\s+)*(theorem|lemma|example|instance|def)',txt)
    if m.group(4) in('def',): return None
    return (txt[:pos]+':= '+STUB+'\n').split('\n')
def name_of(line):
    m=re.search(r'(theorem|lemma|example|def|instance)\s*(\S*)',line)
    return (m.group(1)+':'+line.strip()[:60]) if m and m.group(1)=='example' else (m.group(2) if m else line)
def manifest():
    M=json.load(open('/verif/MANIFEST.json'));
    return sorted({t for c in M['claims'] for t in c['theorems']})
def run(mu):
    if os.path.exists(W): shutil.rmtree(W)
    shutil.copytree(SRC,W,symlinks=True)
    for ed in mu['edits']:
        f=os.path.join(W,'Verif',ed['file']); s=open(f).read()
        assert s.count(ed['old'])==1,(mu['id'],ed['file'],s.count(ed['old']))
        open(f,'w').write(s.replace(ed['old'],ed['new']))
    failed=[];rounds=0;note=''
    while rounds<60:
        rounds+=1
        rc,out=sh('lake build 2>&1')
        errs=re.findall(r'error: (Verif/\S+\.lean):(\d+):\d+: (.*)',out)
        if not errs:
            if rc!=0: note='build error: '+out[-400:]
            break
        byf={}
        for f,l,m in errs: byf.setdefault(f,set()).add(int(l))
        bad=False
        for f,ls in byf.items():
            p=os.path.join(W,f);lines=open(p).read().split('\n')
            for i,j in sorted({split_decl(lines,l) for l in ls},reverse=True):
                st=stub(lines,i,j)
                failed.append(os.path.basename(f)[:-5]+'.'+name_of(lines[i]))
                if st is None: bad=True;note='cannot stub %s:%d %s'%(f,i+1,lines[i]);continue
                lines[i:j]=st
            open(p,'w').write('\n'.join(lines))
        if bad: break
    ms=manifest()
    brk=[];surv=[]
    if not note:
        t='import Verif\n'+'\n'.join('#print axioms '+x for x in ms)
        open('/tmp/mut/ax.lean','w').write(t)
        rc,out=sh('lake env lean /tmp/mut/ax.lean')
        for x in ms:
            m=re.search(r"'"+re.escape(x)+r"' (depends on axioms: \[([^\]]*)\]|does not)",out)
            if not m: note+=' no axioms line for '+x; continue
            (brk if m.group(2) and STUB+'Ax' in m.group(2) else surv).append(x)
    return dict(id=mu['id'],definition=mu['definition'],edit=mu['edit'],claim=mu['claim'],first_failures=failed,broken=brk,surviving=surv,note=note,rounds=rounds)
if __name__=='__main__':
    MU=json.load(open(sys.argv[1])); ids=set(sys.argv[2:])
    for mu in MU:
        if ids and mu['id'] not in ids: continue
        r=run(mu)
        open('/tmp/mut/results.jsonl','a').write(json.dumps(r)+'\n')
        print(r['id'],'rounds',r['rounds'],'failed',len(r['first_failures']),'broken',len(r['broken']),'surv',len(r['surviving']),r['note'][:200],flush=True)
