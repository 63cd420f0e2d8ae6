import re
from fractions import Fraction as Fr
src=open('/repo/src/honeycomb_circuit_test.py').read().split('\n')
def grab(start,end):
    txt='\n'.join(src[start-1:end])
    m=re.search(r'"""\n(.*?)"""',txt,re.S)
    return m.group(1)
NOF={'DETECTOR','OBSERVABLE_INCLUDE','TICK','SHIFT_COORDS','QUBIT_COORDS','REPEAT','END','MPP?','E'}
def norm(ops):
    out=[]
    for o in ops:
        n,a,t=o
        if out and out[-1][0]==n and out[-1][1]==a and n not in NOF:
            out[-1]=(n,a,out[-1][2]+t)
        else: out.append(o)
    return out
al={'CNOT':'CX','ZCX':'CX','H_XZ':'H','CORRELATED_ERROR':'E'}
def pexp(s):
    ops=[]
    for l in s.split('\n'):
        l=l.split('#')[0].strip()
        if not l: continue
        if l=='}': ops.append(('END',(),())) ; continue
        m=re.match(r'REPEAT (\d+) \{',l)
        if m: ops.append(('REPEAT',(float(m.group(1)),),())); continue
        m=re.match(r'(\w+)(?:\(([^)]*)\))?\s*(.*)$',l)
        a=tuple(float(x) for x in m.group(2).split(',')) if m.group(2) else ()
        t=m.group(3).replace('*',' * ').split()
        n=al.get(m.group(1),m.group(1))
        ops.append((n,a,tuple(t)))
    return norm(ops)
def parg(x):
    if x.startswith('indep'):
        _,p,n=x.split(':'); p=float(Fr(p)); n=int(n)
        return 0.5-0.5*(1-p)**(1/2**(n-1))
    return float(Fr(x))
def pm(fn):
    ops=[]
    for l in open(fn):
        l=l.rstrip('\n')
        if l.startswith('REPEAT'): ops.append(('REPEAT',(float(l.split()[1]),),())); continue
        if l=='END': ops.append(('END',(),())); continue
        n,a,t=l.split('|')
        ops.append((n,tuple(parg(x) for x in a.split(',')) if a else (),tuple(t.split())))
    return norm(ops)
def near(a,b): return len(a)==len(b) and all(abs(x-y)<1e-9 for x,y in zip(a,b))
for fn,s,e in [('SD6_V',36,288),('PC3_V',289,495),('EM3_V',496,590),('EM3_v2_V',591,2089),('EM3_H',2090,2206),('SI1000_V',2207,2600)]:
    A=pm(f'/tmp/w/out_{fn}.txt'); B=pexp(grab(s,e))
    bad=0
    for i,(x,y) in enumerate(zip(A,B)):
        if x[0]!=y[0] or not near(x[1],y[1]) or x[2]!=y[2]:
            if bad<3: print(fn,i,x,y)
            bad+=1
    print(fn,len(A),len(B),'bad',bad)
