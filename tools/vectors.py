"""Reads the test vectors of /repo/asn1PERser/test as text (nothing of the repository is executed) and prints them as
Lean examples: python3 tools/vectors.py lean > lean/Verif/Vectors.lean"""
import ast, os, sys, copy
T='/repo/asn1PERser/'
class Skip(Exception): pass
class Ret(Exception):
    def __init__(s,v): s.v=v
class Cls:
    def __init__(s,name,base,attrs): s.name=name; s.base=base; s.attrs=attrs
    def get(s,a):
        if a in s.attrs: return s.attrs[a]
        return s.base.get(a) if s.base else None
    def root(s): return s.name if s.base is None else s.base.root()
class Inst:
    def __init__(s,cls,val=None): s.cls=cls; s.val=val; s.comps={}; s.elems=[]
class Con:
    def __init__(s,kind,args,kw): s.kind=kind; s.args=args; s.kw=kw
class Named:
    def __init__(s,kind,name,inst): s.kind=kind; s.name=name; s.inst=inst
class NT(list): pass
class NV(list): pass
class Enc:
    def __init__(s,inst): s.inst=inst
class Dec:
    def __init__(s,data,spec): s.data=data; s.spec=spec
class TD:
    def __init__(s,o): s.o=o
class Raises:
    def __init__(s,e): s.e=e
class Fn:
    def __init__(s,node,env): s.node=node; s.env=env
BASES={n:Cls(n,None,{}) for n in ['IntegerType','BooleanType','OctetStringType','BitStringType','EnumeratedType','SequenceType','SequenceOfType','ChoiceType','UTF8String']}
MIN='MIN'; MAX='MAX'
def builtin_env():
    e=dict(BASES)
    e.update(MIN=MIN,MAX=MAX)
    for k in ['ValueRange','ValueSize','SequenceOfValueSize','ExtensionMarker','NoConstraint','SingleValue','ConstraintOr','ConstraintAnd']:
        e[k]=('con',k)
    for k in ['NamedType','OptionalNamedType','DefaultedNamedType']: e[k]=('named',k)
    for k in ['NamedTypes','AdditiveNamedTypes']: e[k]=('nt',)
    e['NamedValues']=('nv',)
    for k in ['encode','per_encoder']: e[k]=('enc',)
    for k in ['decode','per_decoder']: e[k]=('dec',)
    e['bytearray']=('bytearray',); e['pytest']=('pytest',)
    for k in ['MandatoryExtensionFieldNotPresent','SizeConstrainViolated','InvalidComponentIndexIntoStructuredType','MandatoryExtensionAdditionGroupFieldNotPresent']:
        e[k]=('exc',k)
    e.update({'True':True,'False':False,'None':None,'enumerate':('py',lambda l,start=0:list(enumerate(l,start))),'len':('py',len),'range':('py',lambda *a:list(range(*a))),'str':('py',str),'zip':('py',lambda *a:list(zip(*a))),'reversed':('py',lambda l:list(reversed(l)))})
    return e
vectors=[]
cur=[None]
mods={}
def load(path):
    if path in mods: return mods[path]
    env=builtin_env(); mods[path]=env
    tree=ast.parse(open(path).read())
    for st in tree.body:
        run(st,env,env,path)
    return env
def modpath(m):
    return '/repo/'+m.replace('.','/')+'.py'
def run(st,env,glob,path):
    if isinstance(st,ast.ImportFrom):
        if st.module and st.module.startswith('asn1PERser.test'):
            e=load(modpath(st.module))
            for a in st.names:
                if a.name=='*': env.update({k:v for k,v in e.items() if not k.startswith('test')})
                else: env[a.asname or a.name]=e[a.name]
        else:
            for a in st.names:
                if a.asname: env[a.asname]=builtin_env()[a.name]
    elif isinstance(st,ast.Import): pass
    elif isinstance(st,ast.Expr):
        if isinstance(st.value,ast.Constant): return
        ev(st.value,env,glob,path)
    elif isinstance(st,ast.Assign):
        v=ev(st.value,env,glob,path)
        for t in st.targets: assign(t,v,env,glob,path)
    elif isinstance(st,ast.FunctionDef):
        env[st.name]=Fn(st,env)
        if st.name.startswith('test_') and env is glob: runtest(st,env,glob,path)
    elif isinstance(st,ast.ClassDef):
        b=ev(st.bases[0],env,glob,path)
        d={}
        sub=dict(env)
        for s in st.body:
            if isinstance(s,ast.Pass): continue
            if isinstance(s,ast.Expr): continue
            before=set(sub)
            e2=ClassScope(d,env)
            run(s,e2,glob,path)
        env[st.name]=Cls(st.name,b,d)
    elif isinstance(st,ast.If):
        for s in (st.body if ev(st.test,env,glob,path) else st.orelse): run(s,env,glob,path)
    elif isinstance(st,ast.For):
        for x in ev(st.iter,env,glob,path):
            assign(st.target,x,env,glob,path)
            for s in st.body: run(s,env,glob,path)
    elif isinstance(st,ast.Return): raise Ret(ev(st.value,env,glob,path) if st.value else None)
    elif isinstance(st,ast.Pass): pass
    elif isinstance(st,ast.Assert):
        c=st.test
        a=ev(c.left,env,glob,path); b=ev(c.comparators[0],env,glob,path)
        if isinstance(b,(Enc,Dec)): a,b=b,a
        if isinstance(a,Enc): vectors.append((cur[0],'enc',copy.deepcopy(a.inst),b))
        elif isinstance(a,Dec): vectors.append((cur[0],'dec',a.spec,a.data,copy.deepcopy(b)))
        elif isinstance(a,TD): vectors.append((cur[0],'dict',a.o,b))
        else: raise Skip('assert')
    elif isinstance(st,ast.With):
        x=ev(st.items[0].context_expr,env,glob,path)
        if not isinstance(x,Raises): raise Skip('with')
        n=st.body[0].value
        r=ev(n,env,glob,path)
        vectors.append((cur[0],'raise',copy.deepcopy(r.inst),x.e))
    else: raise Skip(type(st).__name__)
class ClassScope(dict):
    def __init__(s,d,outer): s.d=d; s.outer=outer
    def __getitem__(s,k): return s.d[k] if k in s.d else s.outer[k]
    def __setitem__(s,k,v): s.d[k]=v
    def __contains__(s,k): return k in s.d or k in s.outer
    def get(s,k,x=None): return s[k] if k in s else x
    def items(s): return {**dict(s.outer.items()),**s.d}.items()
class Scope(dict):
    def __init__(s,outer): s.outer=outer
    def __getitem__(s,k): return dict.__getitem__(s,k) if dict.__contains__(s,k) else s.outer[k]
    def __contains__(s,k): return dict.__contains__(s,k) or k in s.outer
def runtest(fn,env,glob,path):
    params=None
    for d in fn.decorator_list:
        if isinstance(d,ast.Call) and isinstance(d.func,ast.Attribute) and d.func.attr=='parametrize': params=d
        else: print('SKIP decorator',ast.dump(d)[:80],path,fn.name); return
    if params is None: rows=[((),())]
    else:
        names=[x.strip() for x in params.args[0].value.split(',')]
        rows=[]
        for r in params.args[1].elts:
            rows.append((names,r))
    for names,r in rows:
        cur[0]=(os.path.basename(path),fn.name,r.lineno if names else fn.lineno)
        try:
            vals=ev(r,env,glob,path) if names else ()
            sc=Scope(env)
            for n,v in zip(names,vals if isinstance(vals,(tuple,list)) else [vals]): sc[n]=v
            for p in fn.args.args:
                if p.arg not in names: sc[p.arg]=callfn(env[p.arg],glob,path)
            for s in fn.body: run(s,sc,glob,path)
        except Skip as e: print('SKIP',cur[0],e)
def callfn(f,glob,path):
    sc=Scope(f.env)
    try:
        for s in f.node.body: run(s,sc,glob,path)
    except Ret as r: return r.v
def assign(t,v,env,glob,path):
    if isinstance(t,ast.Name): env[t.id]=v
    elif isinstance(t,ast.Subscript):
        o=ev(t.value,env,glob,path); k=ev(t.slice,env,glob,path)
        if isinstance(o,Inst): o.comps[k]=v
        else: o[k]=v
    elif isinstance(t,(ast.Tuple,ast.List)):
        for a,b in zip(t.elts,v): assign(a,b,env,glob,path)
    else: raise Skip('target')
def ev(n,env,glob,path):
    E=lambda x: ev(x,env,glob,path)
    if isinstance(n,ast.Constant): return n.value
    if isinstance(n,ast.Name):
        if n.id not in env: raise Skip('name '+n.id)
        return env[n.id]
    if isinstance(n,ast.UnaryOp):
        v=E(n.operand)
        return -v if isinstance(n.op,ast.USub) else (not v)
    if isinstance(n,ast.BinOp):
        a=E(n.left); b=E(n.right)
        if isinstance(n.op,ast.Add):
            if isinstance(a,NT):
                r=NT(a)
                for x in (b if not (b and isinstance(b[0],NT)) else [z for y in b for z in y]): r.append(x)
                return r
            if isinstance(a,NV): return NV(list(a)+list(b))
            return a+b
        if isinstance(n.op,ast.Mult): return a*b
        if isinstance(n.op,ast.Sub): return a-b
        if isinstance(n.op,ast.Pow): return a**b
        raise Skip('binop')
    if isinstance(n,ast.Dict): return {E(k):E(v) for k,v in zip(n.keys,n.values)}
    if isinstance(n,ast.Tuple): return tuple(E(x) for x in n.elts)
    if isinstance(n,ast.List): return [E(x) for x in n.elts]
    if isinstance(n,ast.ListComp):
        g=n.generators[0]; out=[]
        for x in E(g.iter):
            sc=Scope(env); assign(g.target,x,sc,glob,path)
            out.append(ev(n.elt,sc,glob,path))
        return out
    if isinstance(n,ast.Compare):
        a=E(n.left); b=E(n.comparators[0]); o=n.ops[0]
        if isinstance(o,ast.Is): return a is b
        if isinstance(o,ast.IsNot): return a is not b
        if isinstance(o,ast.Eq): return a==b
        if isinstance(o,ast.Gt): return a>b
        raise Skip('cmp')
    if isinstance(n,ast.BoolOp):
        for v in n.values:
            r=E(v)
            if isinstance(n.op,ast.And) and not r: return r
            if isinstance(n.op,ast.Or) and r: return r
        return r
    if isinstance(n,ast.Attribute):
        o=E(n.value)
        if n.attr=='to_dict': return ('todict',o)
        if isinstance(o,Cls): return o.get(n.attr)
        if isinstance(o,Inst):
            if n.attr in('extend','append','setComponentByName','setComponentByPosition'): return ('meth',o,n.attr)
            return o.cls.get(n.attr)
        if o==('pytest',): return ('pytest',n.attr)
        if o==('bytearray',): return ('hex',)
        if isinstance(o,str): return ('py',getattr(o,n.attr))
        raise Skip('attr '+n.attr)
    if isinstance(n,ast.Slice):
        return slice(E(n.lower) if n.lower else None,E(n.upper) if n.upper else None)
    if isinstance(n,ast.Subscript):
        return E(n.value)[E(n.slice)]
    if isinstance(n,ast.Call):
        f=E(n.func); args=[]
        for a in n.args:
            if isinstance(a,ast.Starred): args+=list(E(a.value))
            else: args.append(E(a))
        kw={k.arg:E(k.value) for k in n.keywords}
        if isinstance(f,Cls):
            if f.root() in('SequenceType','ChoiceType','SequenceOfType'): return Inst(f)
            if args: return Inst(f,('pos',args[0]))
            if 'value' in kw: return Inst(f,('pos',kw['value']))
            for k in('binValue','hexValue'):
                if k in kw: return Inst(f,(k,kw[k]))
            return Inst(f)
        if isinstance(f,Fn):
            sc=Scope(f.env); ps=[a.arg for a in f.node.args.args]
            ds=f.node.args.defaults
            for p,d in zip(ps[len(ps)-len(ds):],ds): sc[p]=ev(d,f.env,glob,path)
            for p,a in zip(ps,args): sc[p]=a
            for k,v in kw.items(): sc[k]=v
            try:
                for s in f.node.body: run(s,sc,glob,path)
            except Ret as r: return r.v
            return None
        if f[0]=='todict': return TD(copy.deepcopy(f[1]))
        if f[0]=='py': return f[1](*args,**kw)
        if f[0]=='con': return Con(f[1],args,kw)
        if f[0]=='named': return Named(f[1],args[0],args[1])
        if f[0]=='nt': return NT(args)
        if f[0]=='nv': return NV(args)
        if f[0]=='enc': return Enc(args[0] if args else kw['asn1Spec'])
        if f[0]=='dec': return Dec(kw['per_stream'],kw['asn1Spec'])
        if f[0]=='hex': return bytes.fromhex(args[0])
        if f[0]=='pytest' and f[1]=='raises': return Raises(args[0][1])
        if f[0]=='meth':
            if f[2]=='extend': f[1].elems+=list(args[0])
            elif f[2]=='append': f[1].elems.append(args[0])
            elif f[2]=='setComponentByName': f[1].comps[args[0]]=args[1]
            else: raise Skip(f[2])
            return None
    raise Skip('expr '+type(n).__name__+' '+(ast.unparse(n)[:60]))
# ---- Lean terms
def oi(x): return 'none' if x in(MIN,MAX,None) else f'(some ({x}))'
def b(x): return 'true' if x else 'false'
def ext(c): return c.kw.get('extensionMarker', c.args[2] if len(c.args)>2 else False)
def size(c):
    if c is None: return '⟨false, none, none⟩'
    if c.kind not in('ValueSize','SequenceOfValueSize'): raise Skip('size '+c.kind)
    return f'⟨{b(ext(c))}, {oi(c.args[0])}, {oi(c.args[1])}⟩'
def marker(c):
    if c is None: return 'false'
    if c.kind!='ExtensionMarker': raise Skip('marker '+c.kind)
    return b(c.args[0])
def nvs(l):
    if l is None: return '[]'
    return '['+', '.join(f'("{a}", {z})' for a,z in l)+']'
def fields(l):
    if not l: return '.nil'
    out=[]
    for f in l:
        t=ty(f.inst.cls)
        k={'NamedType':'.mandatory','OptionalNamedType':'.optional'}.get(f.kind)
        if k is None: k=f'(.default {val(f.inst)})'
        out.append(f'("{f.name}", {k}, {t})')
    return '(Fields.ofList ['+', '.join(out)+'])'
def groups(gs):
    r='.nil'
    for g in reversed(gs or []): r=f'(.cons {fields(g)} {r})'
    return r
def ty(c):
    r=c.root(); s=c.get('subtypeSpec')
    if r=='IntegerType':
        if s is None: return '(.integer .noConstraint)'
        if s.kind!='ValueRange': raise Skip('int '+s.kind)
        return f'(.integer (.valueRange {oi(s.args[0])} {oi(s.args[1])} {b(ext(s))}))'
    if r=='BooleanType': return '.boolean'
    if r=='OctetStringType': return f'(.octetString {size(s)})'
    if r=='BitStringType': return f'(.bitString {size(s)})'
    if r=='EnumeratedType':
        if c.get('enumerationRoot') is None:
            return f'(.enumerated {marker(s)} {nvs(c.get("namedValues"))} [])'
        return f'(.enumerated {marker(s)} {nvs(c.get("enumerationRoot"))} {nvs(c.get("extensionAddition"))})'
    if r=='SequenceOfType': return f'(.seqOf {size(s) if s else "⟨false, some 0, none⟩"} {ty(c.get("componentType").cls)})'
    h={'SequenceType':'sequence','ChoiceType':'choice'}[r]
    return f'(.{h} {marker(s)} {fields(c.get("rootComponent"))} {fields(c.get("extensionAddition"))} {groups(c.get("extensionAdditionGroups"))})'
def allf(c):
    return list(c.get('rootComponent') or [])+list(c.get('extensionAddition') or [])+[f for g in (c.get('extensionAdditionGroups') or []) for f in g]
def bits(v): return '['+', '.join('true' if x=='1' else 'false' for x in v)+']'
def cval(f,v):
    if not isinstance(v,Inst): v=Inst(f.inst.cls,('pos',v))
    if ty(v.cls)!=ty(f.inst.cls): DIFF.append(cur2[0])
    return val(v)
DIFF=[]; cur2=[None]
def val(i):
    r=i.cls.root()
    if r in('SequenceType',):
        out=[]
        names=[f.name for f in allf(i.cls)]
        for k in i.comps:
            if k not in names: raise Skip('component '+k)
        for f in allf(i.cls):
            if f.name in i.comps: out.append('some '+cval(f,i.comps[f.name]))
            else: out.append('none')
        return '(.seq ['+', '.join(out)+'])'
    if r=='ChoiceType':
        names=[f.name for f in allf(i.cls)]
        (k,v),=list(i.comps.items())[-1:]
        return f'(.choice {names.index(k)} {cval(allf(i.cls)[names.index(k)],v)})'
    if r=='SequenceOfType': return '(.seqOf ['+', '.join(val(x) for x in i.elems)+'])'
    k,v=i.val
    if r=='IntegerType': return f'(.int ({v}))'
    if r=='BooleanType': return f'(.bool {b(v)})'
    if r=='EnumeratedType':
        l=(list(i.cls.get('enumerationRoot') or [])+list(i.cls.get('extensionAddition') or [])) or list(i.cls.get('namedValues'))
        if isinstance(v,int): return f'(.enum {v})'
        return f'(.enum {dict(l)[v]})'
    if r=='BitStringType':
        if k=='binValue': return f'(.bits {bits(v)})'
        if k=='hexValue': return f'(.bits {bits("".join(format(int(c,16),"04b") for c in v))})'
    if r=='OctetStringType':
        if k=='binValue': s=v; s=s+'0'*(-len(s)%8); o=bytes(int(s[j:j+8],2) for j in range(0,len(s),8))
        elif k=='hexValue': s=v+('0' if len(v)%2 else ''); o=bytes.fromhex(s)
        else: raise Skip('octets')
        return '(.octets ['+', '.join(map(str,o))+'])'
    raise Skip('val '+r)
def dct(d):
    if isinstance(d,bool): return f'(.bool {b(d)})'
    if isinstance(d,int): return f'(.int ({d}))'
    if isinstance(d,str): return f'(.str "{d}")'
    if isinstance(d,list): return '(.list ['+', '.join(map(dct,d))+'])'
    return '(.dict ['+', '.join(f'("{k}", {dct(x)})' for k,x in d.items())+'])'
def octs(x): return '['+', '.join('0x%02X'%y for y in x)+']'
def received(t,i):
    return i
if __name__=='__main__':
    for d in('encoder','decoder'):
        for f in sorted(os.listdir(T+'test/per/'+d)):
            if f.startswith('test_'): load(T+f'test/per/{d}/'+f)
    load(T+'test/dict_creation/test_to_dict.py')
    mode=sys.argv[1]
    import collections
    by=collections.OrderedDict(); TY={}
    n=0
    EX={'MandatoryExtensionFieldNotPresent':'mandatoryExtensionFieldNotPresent','SizeConstrainViolated':'sizeConstrainViolated','InvalidComponentIndexIntoStructuredType':'invalidComponentIndex'}
    for v in vectors:
        (f,t,l)=v[0]; cur2[0]=v[0]
        try:
            if v[1]=='enc': e=f'enc {ty(v[2].cls)} {val(v[2])} {octs(v[3])}'
            elif v[1]=='dict':
                o=v[2]
                if isinstance(o,Dec): e=f'got {ty(o.spec.cls)} {octs(o.data)} {dct(v[3])}'; v=(v[0],v[1],o.spec,v[3])
                else: e=f'map {ty(o.cls)} {val(o)} {dct(v[3])}'
            elif v[1]=='raise': e=f'bad {ty(v[2].cls)} {val(v[2])} .{EX[v[3]]}'
            else:
                sp=v[2].cls if isinstance(v[2],Inst) else v[2]
                x=v[4]
                if not isinstance(x,Inst): x=Inst(sp,('pos',x))
                e=f'dec {ty(sp)} {octs(v[3])} {val(x)}'
        except Skip as ex:
            print('SKIP',v[0],ex,file=sys.stderr); continue
        TY[(f,l,e)]=ty(v[2].cls if isinstance(v[2],Inst) else v[2])
        by.setdefault(f,[]).append((l,e)); n+=1
    print(n,'vectors',len(set(DIFF)),'with other classes',set(x[0] for x in DIFF),file=sys.stderr)
    print("""import Verif.Decoder
import Verif.Spec
import Verif.ToDict
/-!
# The test vectors of the project (tests of the model, not proofs)

All vectors of `/repo/asn1PERser/test/per/encoder/*.py`, `/repo/asn1PERser/test/per/decoder/*.py` and
`/repo/asn1PERser/test/dict_creation/test_to_dict.py`, transcribed by a script, with the lines they are in.  Left out is
test_per_decode_choice.py:32, where the expected alternative is not the one that is in the octets; Python calls the two equal
because the values of the alternatives are.
-/
namespace Verif.Vectors
open Verif
""")
    print("""/-- `encode` gives these octets. -/
def enc (t : Ty) (v : Val) (o : List Nat) : Bool := decide (encode t v = .ok (o.map UInt8.ofNat))
/-- `decode` gives this value, as it arrives. -/
def dec (t : Ty) (o : List Nat) (v : Val) : Bool := decide (decode t (o.map UInt8.ofNat) = .ok (Spec.received t v))
/-- `encode` raises this. -/
def bad (t : Ty) (v : Val) (e : Err) : Bool := decide (encode t v = .error e)
/-- `to_dict` gives this. -/
def map (t : Ty) (v : Val) (d : Dict) : Bool := decide (toDict t true v = .ok (some d))
/-- `to_dict` of what `decode` gives. -/
def got (t : Ty) (o : List Nat) (d : Dict) : Bool := decide ((decode t (o.map UInt8.ofNat) >>= toDict t true) = .ok (some d))
""")
    skip={('test_per_decode_choice.py',32)}
    if mode=='eval':
        for f,es in by.items():
            for l,e in es: print(f'#eval if {e} then "ok" else "WRONG {f}:{l}"')
    else:
        print("""/-- What a vector expects. -/
inductive Expect where
  | enc (v : Val) (o : List Nat)
  | dec (o : List Nat) (v : Val)
  | bad (v : Val) (e : Err)
  | map (v : Val) (d : Dict)
  | got (o : List Nat) (d : Dict)

/-- Does the model do what is expected of the code? -/
def holds (t : Ty) : Expect → Bool
  | .enc v o => enc t v o
  | .dec o v => dec t o v
  | .bad v e => bad t v e
  | .map v d => map t v d
  | .got o d => got t o d
""")
        for f,es in by.items():
            print(f'/-! ## {f} -/\n')
            gs=[]
            for l,e in es:
                if (f,l) in skip: continue
                k=e[:3]; t=TY[(f,l,e)]; r=e[4:].replace(t,'',1)
                r=' '.join(r.split())
                x=f'.{k} {r}'
                if gs and gs[-1][0]==t and len(gs[-1][1])<25: gs[-1][1].append((l,x))
                else: gs.append((t,[(l,x)]))
            for t,xs in gs:
                print(f'-- {", ".join(map(str,sorted(set(l for l,_ in xs))))}')
                print(f'example : [')
                print(',\n'.join('    '+x for l,x in xs)+f'].all (holds {t}) = true := by decide +kernel')
            print()
    print('end Verif.Vectors')
