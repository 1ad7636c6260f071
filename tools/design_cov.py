"""Regenerates the coverage section of DESIGN.md from the file:line citations in lean/Verif/Model."""
import ast,re,glob,os
here=os.path.dirname(os.path.dirname(os.path.abspath(__file__)))
cited={}; where={}
for f in sorted(glob.glob(here+'/lean/Verif/Model/*.lean')):
    for m in re.finditer(r'((?:peyl/)?\w+\.py):(\d+)(?:-(\d+))?((?:,? (?:and )?\d+(?:-\d+)?)*)',open(f).read()):
        def add(a,b):
            for k in range(a,b+1): cited.setdefault(m.group(1),{}).setdefault(k,set()).add(os.path.basename(f)[:-5])
        a=int(m.group(2)); add(a,int(m.group(3) or a))
        for x in re.finditer(r'(\d+)(?:-(\d+))?',m.group(4) or ''):
            a=int(x.group(1)); add(a,int(x.group(2) or a))
out=[]
os.chdir('/repo')
for f in ['search.py']+sorted(glob.glob('peyl/*.py')):
    t=ast.parse(open(f).read())
    yes,no,mods=[],[],set()
    def walk(node,pre):
        for n in ast.iter_child_nodes(node):
            if isinstance(n,ast.ClassDef): walk(n,pre+n.name+'.')
            elif isinstance(n,(ast.FunctionDef,)):
                c=cited.get(f,{})
                hit=[k for k in range(n.lineno,n.end_lineno+1) if k in c]
                if hit:
                    yes.append(pre+n.name)
                    for k in hit: mods.update(c[k])
                else: no.append(pre+n.name)
            elif not isinstance(n,ast.expr): walk(n,pre)
    walk(t,'')
    if not yes and not no: continue
    out.append(f"**{f}** (model: {', '.join(sorted(mods)) or 'none'}): {len(yes)} modelled, {len(no)} not.\n")
    if yes: out.append("* modelled: "+', '.join(f'`{x}`' for x in yes))
    if no: out.append("* not modelled: "+', '.join(f'`{x}`' for x in no))
    out.append('')
s=open(here+'/DESIGN.md').read()
A,B='<!-- coverage:begin -->','<!-- coverage:end -->'
i,j=s.index(A)+len(A),s.index(B)
open(here+'/DESIGN.md','w').write(s[:i]+'\n'+'\n'.join(out)+'\n'+s[j:])
