"""For every function in /repo/fast_hdbscan: which share of its code lines is cited by a definition in Verif/Model."""
import ast, glob, os, re, collections
root='/repo/fast_hdbscan'
here=os.path.dirname(os.path.abspath(__file__))
cited=collections.defaultdict(lambda: collections.defaultdict(set))
for f in sorted(glob.glob(here+'/../lean/Verif/Model/*.lean')):
    for m in re.finditer(r'([a-z_]+\.py)`?[: ]\s*(\d+(?:[-–]\d+)?(?:, ?\d+(?:[-–]\d+)?)*)', open(f).read()):
        for part in re.split(r', ?', m.group(2)):
            ab=[int(x) for x in re.split('[-–]', part)]
            for i in range(ab[0], ab[-1]+1): cited[m.group(1)][i].add(os.path.basename(f)[:-5])
out=collections.defaultdict(list)
for f in sorted(glob.glob(root+'/*.py')):
    b=os.path.basename(f); t=ast.parse(open(f).read())
    fs=[]
    for n in t.body:
        if isinstance(n, ast.FunctionDef): fs.append((n.name,n))
        if isinstance(n, ast.ClassDef): fs += [(n.name+'.'+k.name,k) for k in n.body if isinstance(k, ast.FunctionDef)]
    for name,n in fs:
        body=n.body[1:] if ast.get_docstring(n) else n.body
        ls=sorted({k.lineno for s in body for k in ast.walk(s) if hasattr(k,'lineno')})
        hit=[i for i in ls if i in cited[b]]
        mods=sorted({m for i in hit for m in cited[b][i]})
        out[b].append((name, f"{n.lineno}-{n.end_lineno}", len(hit), len(ls), mods))
lines=['| file | cited by the model | cited in part | not modelled |','|---|---|---|---|']
for b in sorted(out):
    full=[f'`{x[0]}`' for x in out[b] if x[2]==x[3]]
    part=[f'`{x[0]}` ({x[2]}/{x[3]} lines)' for x in out[b] if 0<x[2]<x[3]]
    none=[f'`{x[0]}`' for x in out[b] if x[2]==0]
    lines.append(f"| `{b}` | {', '.join(full)} | {', '.join(part)} | {', '.join(none)} |")
d=here+'/../DESIGN.md'; t=open(d).read()
a,e='<!-- coverage -->','<!-- /coverage -->'
i,j=t.index(a)+len(a),t.index(e)
open(d,'w').write(t[:i]+'\n'+'\n'.join(lines)+'\n'+t[j:])
