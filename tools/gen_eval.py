# usage: gen_eval.py [lean directory]; writes Verif/Parse/Eval.lean from Expr.lean and Stat.lean
import re,sys,textwrap
root=sys.argv[1] if len(sys.argv)>1 else '/verif/lean'
src=open(root+'/Verif/Parse/Expr.lean').read()+"\n"+open(root+'/Verif/Parse/Stat.lean').read()
rec=['lev','binLoop','commaLoop','postLoop','argsLoop','call','factor','lvarLoop','getStat','getStat1','items','getBlock','prmLoop','fldLoop','fldLines','getStructInit0','initElm','initLoop','getGArrayInit','getGVars','getSrc']
plain=['getLVar','getLVars','getCond','getIni0','getIni','getForCond0','getForCond','getRini0','getRini','getRetVal','getReturn','getParams','getBody','getBodyOrSemi','getFunc','getFieldLine','getStruct','getCnst','getArray0','getArray','getFldInit','getStructInit','getElm','getInit','getGVar','getDecl','getProg']
allf=rec+plain
defs=[]
for m in re.finditer(r'^def (\w+)(.*?)(?=^(?:/--|end|mutual|def|/-|structure|inductive)|\Z)',src,re.S|re.M):
    if m.group(1) in allf: defs.append((m.start(),m.group(1),m.group(2)))
muts=[(m.start(),m.end()) for m in re.finditer(r'^mutual.*?^end$',src,re.S|re.M)]
pat=re.compile(r'(?<![\w.])('+'|'.join(sorted(allf,key=len,reverse=True))+r')(?![\w])')
out=[];thms=[]
groups=[];cur=None
for st,name,body in defs:
    mi=next((i for i,(a,b) in enumerate(muts) if a<st<b),None)
    if mi is None: groups.append([(name,body)]);cur=None
    elif cur==mi: groups[-1].append((name,body))
    else: groups.append([(name,body)]);cur=mi
def hdr(body):
    # split at first ':=' followed by newline or ' do'
    m=re.search(r' :=( do)?\n| :=( do)? ',body)
    return body[:m.start()],bool(m.group(1) or m.group(2)),body[m.end():]
res=[]
info={}
callees={}
for g in groups:
    txt=[]
    for name,body in g:
        body=body.replace('partial_fixpoint','').rstrip()+'\n'
        h,isdo,b=hdr(body)
        b=textwrap.dedent('  '+b if not b.startswith(' ') else b)
        b=pat.sub(lambda m:m.group(1)+'N fu',b)
        args=re.findall(r'\(([\w ]+) : ([^()]+|[^()]*\([^()]*\)[^()]*)\)',h)
        names=[x for a in args for x in a[0].split()]
        ty=h
        info[name]=(names,h)
        callees[name]=[c for c in allf if re.search(r'(?<![\w.])'+c+'N fu',b)]
        if name in rec:
            b=textwrap.indent(b,'    ')
            t=f"def {name}N (fu : Nat){h} :=\n  match fu with\n  | 0 => none\n  | fu + 1 =>{' do' if isdo else ''}\n{b.rstrip()}\ntermination_by structural fu\n"
        else:
            b=textwrap.indent(b,'  ')
            t=f"def {name}N (fu : Nat){h} :={' do' if isdo else ''}\n{b}"
        txt.append(t)
    if len(g)>1: res.append("mutual\n\n"+"\n".join(txt)+"\nend\n")
    else: res.append(txt[0])
    # theorem
    names=[n for n,_ in g]
    def stmt(n):
        h=info[n][0]; hd=re.sub(r' : Option.*$','',info[n][1].replace('\n',' '),flags=re.S)
        return f"∀{hd}, Le ({n}N fu {' '.join(h)}) ({n} {' '.join(h)})"
    def hdclean(n):
        s=info[n][1].replace('\n',' ')
        # drop result type: last ' : ' at paren depth 0
        d=0;cut=None
        for i,c in enumerate(s):
            if c in '([{': d+=1
            if c in ')]}': d-=1
            if d==0 and s[i:i+3]==' : ': cut=i
        s=s[:cut]
        return s
    def stmt(n):
        return f"∀{re.sub(' +',' ',hdclean(n))}, Le ({n}N fu {' '.join(info[n][0])}) ({n} {' '.join(info[n][0])})"
    def hints(n,names):
        r=[]
        for c in callees[n]:
            if c in names: r.append('ih' if len(names)==1 else 'ih%d'%names.index(c))
            else: r.append(c+'_le fu')
        return r
    tn=names[0]+'_le' if len(names)==1 else names[0]+'_all_le'
    if names[0] in rec:
        conj=" ∧\n    ".join('('+stmt(n)+')' if len(names)>1 else stmt(n) for n in names)
        t=f"theorem {tn} (fu : Nat) :\n    {conj} := by\n  induction fu with\n  | zero =>\n    "
        t+= "exact ⟨"+", ".join("by intros; exact .bot" for _ in names)+"⟩\n" if len(names)>1 else "intros; exact .bot\n"
        t+="  | succ fu ih =>\n"
        if len(names)>1:
            t+="    obtain ⟨"+", ".join(f"ih{i}" for i in range(len(names)))+"⟩ := ih\n    refine ⟨"+", ".join("?_" for _ in names)+"⟩\n"
            for i,n in enumerate(names):
                t+=f"    · intros\n      rw [{n}.eq_def, {n}N.eq_def]\n      dsimp only\n      mono_le [{', '.join(hints(n,names))}]\n"
        else:
            n=names[0]
            t+=f"    intros\n    rw [{n}.eq_def, {n}N.eq_def]\n    dsimp only\n    mono_le [{', '.join(hints(n,names))}]\n"
    else:
        n=names[0]
        if n=='getArray0':
            t=f"theorem {tn} (fu : Nat) : {stmt(n)} := by\n  intro dim\n  induction dim with\n  | zero => intros; exact .bot\n  | succ dim ih =>\n    intros\n    rw [{n}, {n}N]\n    mono_le [{', '.join(hints(n,names))}]\n"
        else:
            t=f"theorem {tn} (fu : Nat) : {stmt(n)} := by\n  intros\n  unfold {n} {n}N\n  mono_le [{', '.join(hints(n,names))}]\n"
    if len(names)>1:
        for i,n in enumerate(names):
            t+=f"\ntheorem {n}_le (fu : Nat) : {stmt(n)} :=\n  ({tn} fu)"+(".2"*i)+(".1" if i<len(names)-1 else "")+"\n"
    res.append(t)
known=[n+'_le' for n in allf]
pre='''import Lean.Elab.Tactic.Basic
import Verif.Parse.Top

/-
The parser with a bound on the depth of recursion, for evaluating it on concrete programs. Each
function `fN fu` is the function `f` of Parse/Expr.lean or Parse/Stat.lean with a counter that ends
the recursion with `none`; what `fN` returns, `f` returns (`f_le`). Only examples and
counterexamples use these functions, so they are not part of what has to be trusted.
-/
namespace Cmm.Parse
open Cmm.Tree

/-- Where `x` has a result, `y` has the same. -/
structure Le {α : Type} (x y : Option α) : Prop where
  le : ∀ r, x = some r → y = some r

theorem Le.bot {α : Type} {y : Option α} : Le none y := ⟨fun _ h => by cases h⟩
theorem Le.refl {α : Type} (x : Option α) : Le x x := ⟨fun _ h => h⟩
theorem Le.bind {α β : Type} {x y : Option α} {f g : α → Option β} (h : Le x y)
    (hf : ∀ a, Le (f a) (g a)) : Le (x.bind f) (y.bind g) := by
  constructor
  intro r hr
  rw [Option.bind_eq_some_iff] at hr ⊢
  obtain ⟨a, h1, h2⟩ := hr
  exact ⟨a, h.le _ h1, (hf a).le _ h2⟩
theorem Le.bind' {α β : Type} {x y : Option α} {f g : α → Option β} (h : Le x y)
    (hf : ∀ a, Le (f a) (g a)) : Le (x >>= f) (y >>= g) := Le.bind h hf
theorem Le.map {α β : Type} {x y : Option α} {f : α → β} (h : Le x y) :
    Le (x.map f) (y.map f) := by
  constructor
  intro r hr
  rw [Option.map_eq_some_iff] at hr ⊢
  obtain ⟨a, h1, h2⟩ := hr
  exact ⟨a, h.le _ h1, h2⟩

open Lean Meta Elab Tactic in
/-- Use one matcher wherever the goal mentions two of the same type, so that `split` treats the two
    sides of the goal together. -/
elab "one_matcher" : tactic => do
  let g ← getMainGoal
  let mut t ← instantiateMVars (← g.getType)
  let env ← getEnv
  let cs := t.getUsedConstants.filter fun c => Lean.Meta.Match.Extension.getMatcherInfo? env c |>.isSome
  for c in cs do
    for d in cs do
      if c.lt d then
        let ci ← getConstInfo c
        let di ← getConstInfo d
        let ls := ci.levelParams.map fun _ => Level.zero
        if ci.levelParams.length == di.levelParams.length &&
            ci.instantiateTypeLevelParams ls == di.instantiateTypeLevelParams ls then
          t := t.replace fun e => match e with
            | .const n us => if n == d then some (.const c us) else none
            | _ => none
  replaceMainGoal [← g.replaceTargetDefEq t]

syntax "mono_le" "[" term,* "]" : tactic
macro_rules
  | `(tactic| mono_le [$hs,*]) => do
    let alts ← hs.getElems.mapM fun h => `(tactic| (with_reducible apply $h))
    `(tactic| one_matcher; repeat' (first
      | (with_reducible exact Le.refl _)
      $[| $alts:tactic]*
      | (with_reducible apply Le.bind')
      | (with_reducible apply Le.bind)
      | (with_reducible apply Le.map)
      | intro _
      | dsimp only
      | split))

'''
open(root+'/Verif/Parse/Eval.lean','w').write(pre+'\n'.join(res)+'''
/-- A function as it is handed to the code generator: index, frame size, trees. -/
def Out.fn : Out → Option (Nat × Nat × Stmt × Stmt)
  | .func f n src body _ _ => some (f, n, src, body)
  | _ => none

/-- What the bounded parser computes of a program is so. -/
theorem run_ok {α : Type} {o : Opts} {toks : List Tok} (fu : Nat) (g : PS → α) {v : α}
    (h : (getSrcN fu o (start toks)).map g = some v) :
    ∃ s, getSrc o (start toks) = some s ∧ g s = v := by
  rw [Option.map_eq_some_iff] at h
  obtain ⟨s, h1, h2⟩ := h
  exact ⟨s, (getSrc_le fu o _).le _ h1, h2⟩

end Cmm.Parse
''')
