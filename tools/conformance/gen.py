"""Turns the test cases of /repo/foronoi/tests/unit.py into a Lean file that runs them on the model (decimal rounding).
Only the data of the test cases is evaluated; the library is not imported."""
import os
import ast
from fractions import Fraction
src=open('/repo/foronoi/tests/unit.py').read()
tree=ast.parse(src)
def q(x):
    f=Fraction(repr(x)) if isinstance(x,float) else Fraction(x)
    return f"({f.numerator}/{f.denominator})" if f.denominator!=1 else f"({f.numerator})"
def pt(p): return f"({q(p[0])},{q(p[1])})"
out=[]
class Pol:
    def __init__(s,k,a): s.k=k; s.a=a
ns={'BoundingBox':lambda *a: Pol('box',a),'Polygon':lambda l: Pol('poly',l)}
cases=[]
ns['_triangle']=lambda x,y: Pol('poly',[(0,y),(x,y),(x/2,0)])
ns['_execute']=lambda polygon,points,sizes: cases.append(('sizes',cur,polygon,points,sizes))
ns['_test_vertices_correct']=lambda polygon,points,expected,rz: cases.append(('verts',cur,polygon,points,expected,rz))
# only the literal data of the test cases is evaluated
for n in tree.body:
    if isinstance(n,ast.FunctionDef) and n.name.startswith('test_'):
        cur=n.name
        exec(compile(ast.Module(body=[n],type_ignores=[]),'x','exec'),ns)
        ns[n.name]()
def poly(p):
    if p.k=='box': return f".box {' '.join(q(x) for x in p.a)}"
    return ".poly ["+", ".join(pt(x) for x in p.a)+"]"
L=[]
for c in cases:
    if c[0]=='sizes':
        L.append(f'#eval chkSizes "{c[1]}" ({poly(c[2])}) [{", ".join(pt(x) for x in c[3])}] [{", ".join(q(x) for x in c[4])}]')
    else:
        e="["+",\n".join("["+", ".join(f"({pt(a)}, {pt(b)})" for a,b in v)+"]" for v in c[4])+"]"
        L.append(f'#eval chkVerts "{c[1]}" ({poly(c[2])}) [{", ".join(pt(x) for x in c[3])}] {"true" if c[5] else "false"} {e}')
H=os.path.dirname(os.path.abspath(__file__))
open('/tmp/conformance.lean','w').write(open(H+'/head.lean.txt').read()+"\n".join(L)+"\n"+open(H+'/readme.lean.txt').read())
print(len(cases))
