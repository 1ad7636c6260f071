import re
m=open('/repo/MagmaCheck.m').read()
words=[(x.start(),eval(x.group())) for x in re.finditer(r'\[\s*(?:-?\d+\s*,\s*)+-?\d+\]',m) if len(eval(x.group()))>60]
def line(pos): return m[:pos].count('\n')+1
mats=[]
for x in re.finditer(r'mats\[(-?\d)\] :=\s+(w\^2\*)?Matrix\(R, (\d), \d, \[(.*?)\]\)',m):
    mats.append((line(x.start()),int(x.group(1)),bool(x.group(2)),int(x.group(3)),[e.strip() for e in x.group(4).split(',')]))
enc={'-v^2':'⟨2, [-1]⟩','-v':'⟨1, [-1]⟩','0':'⟨0, []⟩','1':'⟨0, [1]⟩','v^2':'⟨2, [1]⟩','-1':'⟨0, [-1]⟩'}
def wrap(l,ind=4,width=170):
    out=[];cur=' '*ind
    for t in l:
        if len(cur)+len(t)+2>width: out.append(cur.rstrip()); cur=' '*ind
        cur+=t+', '
    out.append(cur.rstrip().rstrip(','))
    return '\n'.join(out)
o='''import Verif.Spec.KernelElements
import Verif.Model.LPoly
/-!
# The data of `MagmaCheck.m`

Generated from /repo/MagmaCheck.m.  The script enters, for `n = 4` over the field with 5 elements and for `n = 6` over the integers,
matrices `mats[1], …, mats[n-1]` and `mats[-1], …, mats[-(n-1)]`, the latter with a factor `w^2 = v^-2` in front, and words in
`±1, …, ±(n-1)`.
-/
namespace Peyl

/-- The matrices of one group: the entries row by row. -/
structure MagmaMats where
  n : Nat
  p : Nat
  gens : List (List LPoly)
  invs : List (List LPoly)

'''
for d,name,n,p in ((3,'magma4',4,5),(5,'magma6',6,0)):
    g=[x for x in mats if x[3]==d and x[1]>0]; i=[x for x in mats if x[3]==d and x[1]<0]
    assert [x[1] for x in g]==list(range(1,d+1)) and [x[1] for x in i]==[-k for k in range(1,d+1)] and all(x[2] for x in i) and not any(x[2] for x in g)
    o+=f"/-- MagmaCheck.m:{g[0][0]}-{i[-1][0]}: `mats` for `n = {n}`; the inverses without their factor `w^2`. -/\ndef {name} : MagmaMats where\n  n := {n}\n  p := {p}\n  gens := [\n"
    o+=',\n'.join('    ['+wrap([enc[e] for e in x[4]],5).lstrip()+']' for x in g)+']\n  invs := [\n'
    o+=',\n'.join('    ['+wrap([enc[e] for e in x[4]],5).lstrip()+']' for x in i)+']\n\n'
for k,(pos,w) in enumerate(words):
    nm='ABCD'[k]
    o+=f"/-- MagmaCheck.m:{line(pos)}. -/\ndef magmaWord{nm} : List Int := [\n"+wrap([str(x) for x in w],2)+']\n\n'
o+='''/-- The words of `MagmaCheck.m` with the elements of the notebook they stand for. -/
def magmaWords : List (KernelElement × List Int) := [(elemA, magmaWordA), (elemB, magmaWordB), (elemC, magmaWordC), (elemD, magmaWordD)]

end Peyl
'''
open('/verif/lean/Verif/Spec/MagmaData.lean','w').write(o)
