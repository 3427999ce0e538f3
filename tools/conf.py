# Generates lean/Verif/Conformance.lean: the assertions of /repo/tests/get_set.rs and of the unit tests in
# /repo/src/internals/parser.rs and /repo/src/types.rs, evaluated on the model by the kernel.
import re,json
gs=open('/repo/tests/get_set.rs').read()
raws=re.findall(r'r#"(.*?)"#',gs,re.S)
ps=open('/repo/src/internals/parser.rs').read()
praws=re.findall(r'r#"(.*?)"#',ps,re.S)
def lit(s):
    o=''
    for c in s:
        if c=='"': o+='\\"'
        elif c=='\\': o+='\\\\'
        elif c=='\n': o+='\\n'
        elif c=='\t': o+='\\t'
        elif c=='\r': o+='\\r'
        else: o+=c
    return '(lit% "'+o+'")'
def unq(s): # rust string literal body -> text
    return s.replace('\\"','"').replace('\\\\','\\').replace('\\n','\n').replace('\\t','\t').replace('\\r','\r')
STR=r'"((?:[^"\\]|\\.)*)"'
def args(s):
    out=[];cur='';q=False;d=0;i=0
    while i<len(s):
        c=s[i]
        if q:
            cur+=c
            if c=='\\': cur+=s[i+1]; i+=1
            elif c=='"': q=False
        elif c=='"': q=True;cur+=c
        elif c in '([{': d+=1;cur+=c
        elif c in ')]}': d-=1;cur+=c
        elif c==',' and d==0: out.append(cur.strip());cur=''
        else: cur+=c
        i+=1
    if cur.strip(): out.append(cur.strip())
    return out
def a1(x):
    x=x.strip()
    m=re.fullmatch(STR+r'(\.into\(\)|\.to_string\(\))?',x,re.S)
    if m: return lit(unq(m.group(1)))
    m=re.fullmatch(r"'(.)'",x)
    if m: return "'%s'"%x[1]
    return str(int(x))
NAMES={'basic_string':'basicString','ml_basic_string':'mlBasicString','literal_string':'literalString','ml_literal_string':'mlLiteralString',
 'int_from_str':'intFromStr','float_from_str':'floatFromStr','bool_from_str':'boolFromStr','date_from_int':'dateFromInt','date_from_str':'dateFromStr',
 'datetime_from_int':'datetimeFromInt','datetime_from_str':'datetimeFromStr','datetime_frac_from_int':'datetimeFracFromInt','datetime_frac_from_str':'datetimeFracFromStr',
 'datetime_offset_from_int':'datetimeOffsetFromInt','datetime_offset_from_str':'datetimeOffsetFromStr','datetime_zulu_from_int':'datetimeZuluFromInt',
 'datetime_zulu_from_str':'datetimeZuluFromStr','datetime_full_zulu_from_int':'datetimeFullZuluFromInt','datetime_full_zulu_from_str':'datetimeFullZuluFromStr',
 'datetime_full_from_int':'datetimeFullFromInt','datetime_full_from_str':'datetimeFullFromStr','datetime_parse':'datetimeParse'}
def val(x): # -> Lean term of type Option Value
    x=x.strip()
    m=re.fullmatch(r'(?:res2opt!\()?(Value::.*?)\)?',x,re.S) if x.startswith('res2opt') else None
    if m: return val(m.group(1)+(')' if not m.group(1).endswith(')') else ''))
    m=re.fullmatch(r'Some\((.*)\)',x,re.S)
    if m: return val(m.group(1))
    if x.endswith('.unwrap()'): x=x[:-9].strip()
    m=re.fullmatch(r'Value::(\w+)\((.*)\)',x,re.S)
    f,a=m.group(1),m.group(2)
    if f=='int': return '(some (Value.ofInt %s))'%a
    if f=='float': return '(some (.float (lit% "'+a+'")))'
    if f in('bool','Boolean'): return '(some (.bool %s))'%a
    if f=='Integer': return '(some (.int %s))'%a1(a)
    if f=='Float': return '(some (.float %s))'%a1(a)
    if f=='String':
        u,t=args(a); t={'Basic':'basic','MLBasic':'mlBasic','Literal':'literal','MLLiteral':'mlLiteral'}[t.split('::')[1]]
        return '(some (.str %s .%s))'%(a1(u),t)
    if f=='Array':
        m=re.fullmatch(r'Rc::new\(\s*vec!\[(.*)\]\s*\)',a,re.S)
        return '(arrOf [%s])'%', '.join(val(z) for z in args(m.group(1)))
    if f=='InlineTable':
        m=re.fullmatch(r'Rc::new\(\s*vec!\[(.*)\]\s*\)',a.strip(),re.S)
        l=[]
        for z in args(m.group(1)):
            k,v=args(z.strip()[1:-1]); l.append('(%s, %s)'%(a1(k),val(v)))
        return '(tabOf [%s])'%', '.join(l)
    if f=='DateTime': return None
    if f=='datetime_parse': return '(dtp %s)'%a1(a)
    return '(Value.%s %s)'%(NAMES[f],' '.join(a1(z) for z in args(a)))
def balanced(s,i): # s[i]=='(' ; return index after matching ')'
    d=0;q=False
    while True:
        c=s[i]
        if q:
            if c=='\\': i+=1
            elif c=='"': q=False
        elif c=='"': q=True
        elif c in '([{': d+=1
        elif c in ')]}':
            d-=1
            if d==0: return i+1
        i+=1
def calls(body,name):
    out=[]
    for m in re.finditer(re.escape(name)+r'\(',body):
        j=balanced(body,m.end()-1); out.append((m.start(),body[m.end():j-1]))
    return out
def strip_raw(s): return re.sub(r'r#"(.*?)"#','RAW',s,flags=re.S)
def fns(src):
    out={}
    for m in re.finditer(r'fn (test_\w+)\(\) \{',src):
        b=m.end(); n=re.search(r'\n  ?(  )?\}\n|\n\}',src[b:]); 
        m2=re.search(r'\n(  )?#\[test\]',src[b:])
        out[m.group(1)]=src[b:b+(m2.start() if m2 else len(src))]
    return out
L=[]
L.append('''import Verif.Cli
/-!
# Conformance: the repository's own test assertions, evaluated on the model by the kernel

Generated by tools/conf.py from /repo/tests/get_set.rs, /repo/src/internals/parser.rs (428-818) and /repo/src/types.rs (1473-1907).
These are tests of the model, not proofs about all inputs.
-/

namespace Tomllib.Conformance

/-- An array value from constructor results. -/
def arrOf (vs : List (Option Value)) : Option Value := (vs.mapM id).map .arr
/-- An inline table value from constructor results. -/
def tabOf (kvs : List (Str × Option Value)) : Option Value :=
  (kvs.mapM fun (x : Str × Option Value) => x.2.map fun v => (x.1, v)).map .itab
/-- `datetime_parse`, a panic counts as an error here. -/
def dtp (s : Str) : Option Value := match Value.datetimeParse s with
  | .ok r => r
  | _ => none
/-- Parse with a new parser, then apply assignments. -/
def load (s : Str) (sets : List (Str × Option Value)) : Option Parser :=
  match Parser.new.parse s with
  | .ok (p, _) => sets.foldl (fun p (k, v) => match p, v with
      | some p, some v => match p.setValue k v with
        | .ok (p, _) => some p
        | _ => none
      | _, _ => none) (some p)
  | _ => none
/-- All values are as expected. -/
def gets (p : Option Parser) (es : List (Str × Option Value)) : Bool := match p with
  | some p => es.all fun (k, v) => p.getValue k == .ok v
  | none => false
/-- All children are as expected. -/
def kids (p : Option Parser) (es : List (Str × Children)) : Bool := match p with
  | some p => es.all fun (k, v) => p.getChildren k == some v
  | none => false
/-- The printed document. -/
def shown (p : Option Parser) (s : Str) : Bool := match p with
  | some p => p.display == .ok s
  | none => false
/-- All assignments succeed. -/
def setsOk (p : Option Parser) (es : List (Str × Option Value)) : Bool := match p with
  | some p => (es.foldl (fun (p : Option Parser) (k, v) => match p, v with
      | some p, some v => match p.setValue k v with
        | .ok (p, true) => some p
        | _ => none
      | _, _ => none) (some p)).isSome
  | none => false
/-- The result of parsing. -/
def res (s : Str) : Option ParseResult := match Parser.new.parse s with
  | .ok (_, r) => some r
  | _ => none
''')
docs={0:'docCars',2:'docMixed'}
L.append('/-- tests/get_set.rs:16-36 -/\ndef docCars : Str := %s\n'%lit(raws[0]))
L.append('/-- tests/get_set.rs:92-116 -/\ndef docMixed : Str := %s\n'%lit(raws[2]))
L.append('/-- src/internals/parser.rs:438-459 -/\ndef docCars2 : Str := %s\n'%lit(praws[0]))
n=0
def ex(t,c): 
    L.append('/-- %s -/\nexample : %s = true := by decide +kernel\n'%(c,t))
def sets_of(body,var):
    return [args(a) for _,a in calls(body,var+'.set_value')]
def children(x):
    m=re.fullmatch(r'(?:Some\()?&Children::Count\(Cell::new\((\d+)\)\)\)?',x)
    if m: return '.count '+m.group(1)
    m=re.search(r'vec!\[(.*)\]',x,re.S)
    return '.keys [%s]'%', '.join(a1(z) for z in args(m.group(1)))
F=fns(strip_raw(gs))
b=F['test_output_after_set']
S=', '.join('(%s, %s)'%(a1(k),val(v)) for k,v in sets_of(b,'p'))
ex('shown (load docCars [%s]) %s'%(S,lit(raws[1])),'tests/get_set.rs test_output_after_set')
ex('(res docMixed == some .full)','tests/get_set.rs test_mixed_tables')
def gete(body,var):
    out=[]
    for _,a in calls(body,'assert_eq!'):
        l=args(a)
        if len(l)!=2: continue
        for x,y in((l[0],l[1]),(l[1],l[0])):
            m=re.fullmatch(var+r'\.get_value\('+STR+r'(?:\.to_string\(\))?\)(\.unwrap\(\))?',x,re.S)
            if m:
                if y=='None': out.append('(%s, none)'%lit(unq(m.group(1))))
                else:
                    v=val(y)
                    if v: out.append('(%s, %s)'%(lit(unq(m.group(1))),v))
    return out
def kide(body,var):
    out=[]
    for _,a in calls(body,'assert_eq!'):
        l=args(a)
        if len(l)!=2: continue
        for x,y in((l[0],l[1]),(l[1],l[0])):
            m=re.fullmatch(var+r'\.get_children\('+STR+r'(?:\.to_string\(\))?\)(\.unwrap\(\))?',x,re.S)
            if m: out.append('(%s, %s)'%(lit(unq(m.group(1))),children(y)))
    return out
ex('gets (load docMixed []) [%s]'%',\n  '.join(gete(F['test_basic_get_on_mixed_tables'],'parser')),'tests/get_set.rs test_basic_get_on_mixed_tables')
ex('kids (load docMixed []) [%s]'%',\n  '.join(kide(F['test_get_children_on_mixed_tables'],'parser')),'tests/get_set.rs test_get_children_on_mixed_tables')
b=F['test_basic_set_then_get_on_mixed_tables']
S='['+',\n  '.join('(%s, %s)'%(a1(k),val(v)) for k,v in sets_of(b,'parser'))+']'
ex('setsOk (load docMixed []) %s'%S,'tests/get_set.rs test_basic_set_then_get_on_mixed_tables (every assignment succeeds)')
ex('gets (load docMixed %s) [%s]'%(S,',\n  '.join(gete(b,'parser'))),'tests/get_set.rs test_basic_set_then_get_on_mixed_tables (values read back)')
def err(i,pat,c): ex('(match res %s with | some (.fullError (%s :: _)) => true | _ => false)'%(lit(raws[i]),pat),c)
# errors
ex('(match res %s with | some (.fullError (.mixedArray k 4 _ :: _)) => k == %s | _ => false)'%(lit(raws[3]),lit('foo."bar"[0].array')),'tests/get_set.rs test_mixed_mixed_array_fail')
ex('(match res %s with | some (.fullError (.mixedArray k 3 _ :: _)) => k == %s | _ => false)'%(lit(raws[4]),lit('foo.quality.machine.parts.service."inline table".meal')),'tests/get_set.rs test_mixed_mixed_array_in_inline_table_fail')
ex('(match res %s with | some (.fullError (.invalidTable k 5 _ m :: _)) => k == %s && m.get? %s == Value.basicString %s && m.get? %s == Value.basicString %s | _ => false)'%(lit(raws[5]),lit('foo.quality'),lit('KEYONE'),lit('VALUEONE'),lit('KEYTWO'),lit('VALUETWO')),'tests/get_set.rs test_invalid_table_fail')
ex('(match res %s with | some (.fullError (.duplicateKey k 5 _ v :: _)) => k == %s && some v == Value.literalString %s | _ => false)'%(lit(raws[6]),lit('owner.a_key'),lit('ANOTHER VALUE')),'tests/get_set.rs test_duplicate_key_fail')
ex('(match res %s with | some (.fullError (.invalidDateTime k 5 _ t :: _)) => k == %s && t == %s | _ => false)'%(lit(raws[7]),lit('owner.b_key'),lit('2010-02-29T03:03:03.3333Z')),'tests/get_set.rs test_invalid_datetime_fail')
ex('(res %s == some .full)'%lit(raws[8]),'tests/get_set.rs test_nested_empty_table')
ex('(match res %s with | some .full => false | some _ => true | none => false)'%lit(raws[9]),'tests/get_set.rs test_nested_table_with_keys')
# parser.rs
F=fns(strip_raw(ps))
g=[];k=[]
for name,b in F.items():
    ss=sets_of(b,'p')
    if ss:
        S=', '.join('(%s, %s)'%(a1(x),val(y)) for x,y in ss)
        e=gete(b,'p')
        if e: ex('gets (load docCars2 [%s]) [%s]'%(S,',\n  '.join(e)),'src/internals/parser.rs '+name)
    else:
        g+=gete(b,'p'); k+=kide(b,'p')
ex('gets (load docCars2 []) [%s]'%',\n  '.join(g),'src/internals/parser.rs: the tests that only read values')
ex('kids (load docCars2 []) [%s]'%',\n  '.join(k),'src/internals/parser.rs: the tests that only read children')
# types.rs : which constructor calls succeed
ts=open('/repo/src/types.rs').read(); ts=ts[ts.index('mod test'):] if 'mod test' in ts else ts[-20000:]
F=fns(ts); ok=[];bad=[]
for name,b in F.items():
    if 'create' in name or 'datetime_parse' in name:
        for m in re.finditer(r'Value::(\w+)\(',b):
            if m.group(1) not in NAMES and m.group(1)!='int': continue
            j=balanced(b,m.end()-1); call='Value::%s(%s)'%(m.group(1),b[m.end():j-1])
            try: t=val(call)
            except Exception as e: print('skip',call,e); continue
            (bad if name.endswith('fail') else ok).append(t)
ex('([%s] : List (Option Value)).all Option.isSome'%',\n  '.join(ok),'src/types.rs: constructor calls that must succeed')
ex('([%s] : List (Option Value)).all Option.isNone'%',\n  '.join(bad),'src/types.rs: constructor calls that must fail')
L.append('end Tomllib.Conformance')
open('/verif/lean/Verif/Conformance.lean','w').write('\n'.join(L)+'\n')
print(len(ok),len(bad),len(g),len(k))
