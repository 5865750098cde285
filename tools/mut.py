import subprocess,re,sys,json,os,shutil,time
SRC='/verif/lean'; DST='/tmp/mut/lean'
def sync():
    shutil.rmtree(DST,ignore_errors=True); subprocess.run(['cp','-a',SRC,DST],check=True)
def thm_at(path,line):
    L=open(path).read().split('\n')
    for i in range(line-1,-1,-1):
        m=re.match(r'(?:@\[[^\]]*\] )?(?:private )?(theorem|lemma|def|example|instance|structure|inductive)\b\s*(\S*)',L[i])
        if m: return (m.group(2) or 'example') if m.group(1)!='example' else 'example@%d'%(i+1)
    return '?'
def run(f,old,new,count=1,targets=None):
    p=os.path.join(DST,'Verif',f)
    t=open(p).read()
    if old not in t: return {'error':'pattern not found'}
    if t.count(old)>1 and count==1: pass
    open(p,'w').write(t.replace(old,new,count))
    t0=time.time()
    gen=f in ('Parse/Expr.lean','Parse/Stat.lean')
    if gen: subprocess.run(['python3',os.path.join(os.path.dirname(os.path.abspath(__file__)),'gen_eval.py'),DST],check=True)
    r=subprocess.run(['lake','build']+(targets or []),cwd=DST,capture_output=True,text=True,timeout=3000)
    out=r.stdout+r.stderr
    fails=[];mods=set()
    for m in re.finditer(r'error: (Verif/\S+?\.lean):(\d+):',out):
        n=thm_at(os.path.join(DST,m.group(1)),int(m.group(2)))
        x=m.group(1)[6:-5]+':'+n
        if x not in fails: fails.append(x)
    open(p,'w').write(t)
    if gen: shutil.copy(SRC+'/Verif/Parse/Eval.lean',DST+'/Verif/Parse/Eval.lean')
    return {'rc':r.returncode,'fails':fails,'secs':round(time.time()-t0)}
if __name__=='__main__':
    muts=json.load(open(sys.argv[1])); outp=sys.argv[2]
    if not os.path.exists(DST) or '--sync' in sys.argv: sync()
    for m in muts:
        try: r=run(m['file'],m['old'],m['new'],m.get('count',1),m.get('targets'))
        except Exception as e: r={'error':repr(e)[:300]}
        m2=dict(m); m2['result']=r
        open(outp,'a').write(json.dumps(m2,ensure_ascii=False)+'\n')
        print(m['id'],r.get('rc'),r.get('fails') or r.get('error'),r.get('secs'),flush=True)
