import re
src=open('/repo/packages/mitex/specs/latex/standard.typ').read()
i=src.index('process-spec((')+len('process-spec((')
# tokenise entries at depth 0
pos=i
line0=src[:i].count('\n')+1
entries=[]
depth=0
cur=''
curline=None
def skip_str(p):
    p+=1
    while src[p]!='"':
        if src[p]=='\\': p+=1
        p+=1
    return p+1
while True:
    c=src[pos]
    if c=='"':
        e=skip_str(pos); cur+=src[pos:e]; pos=e; continue
    if src.startswith('//',pos):
        while src[pos]!='\n': pos+=1
        continue
    if c in '([{': depth+=1
    if c in ')]}':
        if depth==0: break
        depth-=1
    if c==',' and depth==0:
        entries.append(cur.strip()); cur=''; pos+=1; continue
    cur+=c; pos+=1
if cur.strip(): entries.append(cur.strip())
def unq(s):
    assert s[0]=='"' and s[-1]=='"',s
    b=s[1:-1]
    out='';k=0
    while k<len(b):
        if b[k]=='\\':
            n=b[k+1]
            if n=='u':
                m=re.match(r'\\u\{([0-9a-fA-F]+)\}',b[k:]); out+=chr(int(m.group(1),16)); k+=len(m.group(0)); continue
            out+={'n':'\n','t':'\t','r':'\r'}.get(n,n); k+=2; continue
        out+=b[k]; k+=1
    return out
def lean(s):
    r='t!"'
    for c in s:
        if c in '"\\': r+='\\'+c
        elif c=='\n': r+='\\n'
        else: r+=c
    return r+'"'
def splitargs(s):
    # s inside parens
    out=[];d=0;cur='';p=0
    while p<len(s):
        c=s[p]
        if c=='"':
            e=p+1
            while s[e]!='"':
                if s[e]=='\\': e+=1
                e+=1
            cur+=s[p:e+1]; p=e+1; continue
        if c in '([{': d+=1
        if c in ')]}': d-=1
        if c==',' and d==0: out.append(cur.strip()); cur=''; p+=1; continue
        cur+=c; p+=1
    if cur.strip(): out.append(cur.strip())
    return out
ctx={'none':'.none','is-math':'.isMath','is-matrix':'.isMatrix','is-cases':'.isCases','is-figure':'.isFigure','is-table':'.isTable','is-itemize':'.isItemize','is-enumerate':'.isEnumerate'}
def opt(a): return 'none' if a is None or a=='none' else '(some %s)'%lean(unq(a))
res=[]
for e in entries:
    m=re.match(r'^("(?:[^"\\]|\\.)*"|[A-Za-z0-9_\-]+)\s*:\s*(.*)$',e,re.S)
    assert m,e
    k=m.group(1); v=m.group(2)
    name=unq(k) if k[0]=='"' else k
    m=re.match(r'^([a-z0-9\-]+)(?:\((.*)\))?$',v,re.S)
    assert m,v
    f=m.group(1); args=splitargs(m.group(2)) if m.group(2) else []
    posi=[a for a in args if not re.match(r'^[a-z]+:',a)]
    named={re.match(r'^([a-z]+):',a).group(1):a.split(':',1)[1].strip() for a in args if re.match(r'^[a-z]+:',a)}
    if f=='define-cmd': it='.cmd ⟨.right (.fixedLen %s), %s⟩'%(posi[0],opt(named.get('alias')))
    elif f=='define-sym': it='.symAlias %s'%lean(unq(posi[0]))
    elif f=='ignore-sym': it='.symAlias []'
    elif f in('sym','of-sym'): it='.symbol'
    elif f=='arrow-handle': it='.cmd ⟨.right (.fixedLen 1), none⟩'
    elif f=='greedy-handle' or f=='define-greedy-cmd': it='.cmdGreedy %s'%lean(unq(posi[0]))
    elif f=='limits-handle': it='.cmd ⟨.right (.fixedLen 1), (some %s)⟩'%lean(unq(posi[0]))
    elif f=='matrix-handle': it='.env ⟨.none, .isMatrix, none⟩'
    elif f=='define-glob-cmd': it='.cmdGlob %s %s'%(lean(unq(posi[0])),lean(unq(posi[1])))
    elif f=='define-infix-cmd': it='.cmdInfix %s'%lean(unq(posi[0]))
    elif f=='left1-op': it='.cmd ⟨.left1, (some %s)⟩'%lean(unq(posi[0]))
    elif f=='cmd1': it='.command1'
    elif f=='cmd2': it='.command2'
    elif f=='define-env':
        pat='.none' if posi[0]=='none' else '(.fixedLen %s)'%posi[0]
        k2=ctx[unq(named['kind'])] if 'kind' in named else '.none'
        it='.env ⟨%s, %s, %s⟩'%(pat,k2,opt(named.get('alias')))
    elif f=='define-glob-env':
        it='.envGlob %s %s %s'%(lean(unq(posi[0])),lean(unq(named['alias'])),ctx[unq(named['kind'])])
    elif f=='matrix-env': it='.envMatrix'
    else: raise Exception(f+' '+v)
    res.append((name,it))
names=[n for n,_ in res]
print(len(res), len(set(names)))
CH=60
out='''/-
The standard package, packages/mitex/specs/latex/standard.typ:91-1186, transcribed entry by entry
(scripts/genspec.py; the Typst handlers are dropped, the helpers of prelude.typ are unfolded to the items
they produce).  It is the source of the default specification (crates/mitex-spec-gen/build.rs).
-/
import Verif.Model.SpecQuery

namespace Mitex

'''
n=0
for a in range(0,len(res),CH):
    out+='/-- standard.typ, entries %d-%d of the standard package. -/\ndef stdChunk%d : HMap SugarItem := [\n'%(a+1,min(a+CH,len(res)),n)
    out+=',\n'.join('  (%s, %s)'%(lean(nm),it) for nm,it in res[a:a+CH])+']\n\n'
    n+=1
out+='/-- standard.typ:91-1186: the package `latex-std`. -/\ndef standardPackage : HMap SugarItem :=\n  '+' ++ '.join('stdChunk%d'%k for k in range(n))+'\n\n'
out+='''/-- crates/mitex-spec-gen/src/lib.rs:11-16 `DEFAULT_SPEC`: the standard package, canonicalised; as a map
(its entries have distinct names, theorem `standardPackage_nodup`). -/
def defaultItems : HMap SpecItem := standardPackage.map fun e => (e.1, e.2.canon)

/-- `DEFAULT_SPEC` as a lookup function. -/
def defaultSpec : CommandSpec := specOfMap defaultItems

end Mitex
'''
open('/verif/lean/Verif/Model/StandardSpec.lean','w').write(out)
