"""Mutation testing of the Lean model, in a scratch copy.  usage: mutate.py FILE.json
Each entry: {"definition","file","old","new","claim"[,"note"]}.  Builds all of Verif with the edit applied and prints
the declarations in which errors occur and the modules that do not build; appends to /verif/seeded/LOG.jsonl."""
import json,subprocess,re,sys,os,shutil,time
S='/tmp/mut'
src='/tmp/mutsrc'   # snapshot of /verif/lean taken at the start, so that work can go on meanwhile
def sync():
    os.makedirs(S,exist_ok=True)
    subprocess.run(['rsync','-a','--delete',src+'/',S+'/'],check=True) if shutil.which('rsync') else (subprocess.run(['rm','-rf',S]),shutil.copytree(src,S,symlinks=True))
def enclosing(f,line):
    L=open(f).read().split('\n')
    for i in range(min(line,len(L))-1,-1,-1):
        m=re.match(r'\s*(?:@\[[^\]]*\]\s*)?(?:private |protected |noncomputable )*(theorem|lemma|def|instance|example|structure|inductive|abbrev)\b\s*(\S*)',L[i])
        if m: return m.group(2) if m.group(1)!='example' else 'example@%d'%(i+1)
    return '?'
S0='/verif/lean'
subprocess.run(['rm','-rf',src])
shutil.copytree(S0,src,symlinks=True)
muts=json.load(open(sys.argv[1]))
log='/verif/seeded/LOG.jsonl'
for m in muts:
    sync()
    p=os.path.join(S,m['file']); s=open(p).read()
    if s.count(m['old'])!=1:
        print('BAD EDIT',m['definition'],s.count(m['old']),m['old']); continue
    open(p,'w').write(s.replace(m['old'],m['new']))
    t=time.time()
    def build():
        r=subprocess.run(['lake','build'],cwd=S,capture_output=True,text=True)
        out=r.stdout+r.stderr; fails={}
        for mm in re.finditer(r'error: (Verif/\S+\.lean):(\d+):\d+',out):
            n=enclosing(os.path.join(S,mm.group(1)),int(mm.group(2)))
            k=mm.group(1)[6:-5]; fails.setdefault(k,[])
            if n not in fails[k]: fails[k].append(n)
        return fails
    fails=build(); exs=[]
    # when only examples fail, delete them and see whether a theorem fails
    for _ in range(4):
        if not fails or any(not x.startswith('example@') for v in fails.values() for x in v): break
        for k,v in fails.items():
            f=os.path.join(S,'Verif',k+'.lean'); L=open(f).read().split('\n')
            for x in sorted((int(x[8:]) for x in v),reverse=True):
                exs.append(k+' example@%d'%x)
                j=x
                while j<len(L) and not re.match(r'(theorem|def|example|/-|end|inductive|structure|instance|abbrev|private|noncomputable|set_option|open|namespace|@)',L[j]): j+=1
                for q in range(x-1,j): L[q]=''
                # a doc comment directly above would dangle
                q=x-2
                if q>=0 and L[q].rstrip().endswith('-/'):
                    while not L[q].startswith('/-'): L[q]=''; q-=1
                    L[q]=''
            open(f,'w').write('\n'.join(L))
        fails=build()
    if exs: m['note']=(m.get('note','')+' failing examples: '+', '.join(exs)).strip()
    print(m['definition'],'|',m['claim'],'|',round(time.time()-t),'s',json.dumps(fails) if fails else '**** SURVIVED ****',flush=True)
    e=dict(definition=m['definition'],edit=m['old']+'  ==>  '+m['new'],file=m['file'],claim=m['claim'],
      theorems_failed=[x for v in fails.values() for x in v],theorems_tightened=m.get('tightened',[]))
    if 'note' in m: e['note']=m['note']
    if not m.get('nolog'):
        os.makedirs('/verif/seeded',exist_ok=True)
        open(log,'a').write(json.dumps(e,ensure_ascii=False)+'\n')
