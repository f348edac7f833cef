import re,sys,glob,copy
class T:
    def __init__(s,d=''): s.d=d; s.c=[]
    def child(s,k):
        for kk,v in s.c:
            if kk==k: return v
    def get(s,path):
        t=s
        for k in path.split('.'):
            t=t.child(k)
            if t is None: return None
        return t
    def put(s,path,v):
        t=s
        for k in path.split('.'):
            n=t.child(k)
            if n is None:
                n=T(); t.c.append((k,n))
            t=n
        t.d=v
    def erase(s,k): s.c=[(a,b) for a,b in s.c if a!=k]
    def lean(s):
        q=lambda x:'"'+x.replace('\\','\\\\').replace('"','\\"')+'"'
        return '(.node %s [%s])'%(q(s.d),', '.join('(%s, %s)'%(q(k),v.lean()) for k,v in s.c))
def read_info(fn):
    root=T(); stack=[root]; last=None
    for line in open(fn):
        # strip comments
        out=''; inq=False
        for ch in line:
            if ch=='"': inq=not inq
            if ch==';' and not inq: break
            out+=ch
        line=out.strip()
        if not line: continue
        if line=='{': stack.append(last); continue
        if line=='}': stack.pop(); continue
        m=re.match(r'("[^"]*"|\S+)\s*(.*)$',line)
        k,v=m.group(1).strip('"'),m.group(2).strip()
        op=False
        if v.endswith('{'): op=True; v=v[:-1].strip()
        # data: quoted string or single word
        if v.startswith('"'): v=re.match(r'"([^"]*)"',v).group(1)
        else:
            ws=v.split()
            if len(ws)>1: print('multiword',fn,line,file=sys.stderr)
            v=ws[0] if ws else ''
        n=T(v); stack[-1].c.append((k,n)); last=n
        if op: stack.append(n)
    return root
def cppval(v):
    v=v.strip()
    if v.startswith('"'): return v[1:-1]
    if v in('true','false'): return v
    f=float(v)
    if re.fullmatch(r'-?\d+',v): return v
    r=repr(f)
    return r[:-2] if r.endswith('.0') else r
def test(fn):
    src=open(fn).read()
    cases=[]
    src=re.sub(r'//.*','',src)
    for case in re.split(r'BOOST_AUTO_TEST_CASE',src)[1:]:
        name=re.match(r'\((\w+)\)',case).group(1)
        if name=='parse_test_input_files': continue
        db=T(); n=0
        for st in case.split(';'):
            st=' '.join(st.split())
            m=re.search(r'database\.put\("([^"]+)", ?(.+)\)$',st)
            if m: db.put(m.group(1),cppval(m.group(2))); continue
            if '.erase(' in st and 'get_child' in st:
                ch=re.findall(r'get_child\( ?"([^"]+)"\)',st); k=re.search(r'erase\( ?"([^"]+)"\)$',st).group(1)
                t=db
                for c in ch: t=t.get(c)
                t.erase(k); continue
            m=re.search(r'database\.erase\("([^"]+)"\)$',st)
            if m: db.erase(m.group(1)); continue
            if 'BOOST_CHECK_THROW' in st: cases.append((name+str(n),copy.deepcopy(db),False)); n+=1; continue
            if st.endswith('validate_input_database(database)'): cases.append((name+str(n),copy.deepcopy(db),True)); n+=1; continue
            if 'database' in st: print('UNPARSED',st,file=sys.stderr)
    return cases
cases=test('/repo/tests/test_validate_input_database.cc')
infos=[(f.split('/')[-1],read_info(f)) for f in sorted(glob.glob('/repo/tests/data/*.info'))+['/repo/application/input.info']]
print('''import Verif.Input.Start
namespace Verif.Input
def isNum (s : String) : Bool := s.length > 0 && s.all Char.isDigit
def rdDec (s : String) : Option ℚ :=
  let (neg, s) := if s.startsWith "-" then (true, s.drop 1 |>.toString) else (false, s)
  let parts := (s.toLower.splitOn "e")
  let mant := parts.headD ""
  let ex := (parts.drop 1).headD "0"
  let (exneg, ex) := if ex.startsWith "-" then (true, ex.drop 1 |>.toString) else if ex.startsWith "+" then (false, ex.drop 1 |>.toString) else (false, ex)
  let mp := mant.splitOn "."
  let ip := mp.headD ""
  let fp := (mp.drop 1).headD ""
  if parts.length ≤ 2 && mp.length ≤ 2 && (ip ++ fp).all Char.isDigit && (ip ++ fp).length > 0 && isNum ex then
    let v : ℚ := ((ip ++ fp).toNat!  : ℚ) / (10 : ℚ) ^ fp.length
    let v := if exneg then v / 10 ^ ex.toNat! else v * 10 ^ ex.toNat!
    some (if neg then -v else v)
  else none
def P : Parsers ℚ where
  uint := fun s => if isNum s then some s.toNat! else none
  dbl := rdDec
  bool := fun s => if s = "true" || s = "1" then some true else if s = "false" || s = "0" then some false else none
''')
for i,(n,t,e) in enumerate(cases):
    print('def t%d : Tree := %s'%(i,t.lean()))
for i,(n,t) in enumerate(infos):
    print('def f%d : Tree := %s'%(i,t.lean()))
for i,(n,t,e) in enumerate(cases):
    print('#eval ("%s", decide (Accepted P t%d) == %s)'%(n,i,'true' if e else 'false'))
for i,(n,t) in enumerate(infos):
    print('#eval ("%s", decide (Accepted P f%d), simulate P f%d)'%(n,i,i))
print('end Verif.Input')
