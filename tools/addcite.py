"""addcite.py: stdin JSON {file: {defname: text}}; appends text to the def's docstring (creates one if missing)."""
import json,re,sys
M=json.load(sys.stdin)
for f,d in M.items():
    p='/verif/lean/Verif/'+f+'.lean'
    L=open(p).read().split('\n')
    for name,text in d.items():
        idx=[n for n,l in enumerate(L) if re.match(r'(?:@\[[^\]]*\]\s*)?(?:noncomputable |private |protected )*(?:def|structure|inductive|abbrev|class)\s+'+re.escape(name)+r'(?![\w.\'?])',l)]
        if len(idx)!=1: print('??',f,name,idx); continue
        n=idx[0]; k=n-1
        while k>=0 and (L[k].startswith('@[') or L[k].startswith('open ') or L[k].startswith('variable ') or L[k].startswith('set_option')): k-=1
        if L[k].rstrip().endswith('-/'):
            j=k
            while '/--' not in L[j]: j-=1
            doc='\n'.join(L[j:k+1])
            if text in doc: continue
            body=L[k].rstrip()[:-2].rstrip()
            if len(body)+len(text)+4<=125 : L[k]=body+' '+text+' -/'
            else: L[k]=body+'\n'+text+' -/'
            L='\n'.join(L).split('\n')
        else:
            L.insert(n,'/-- '+text+' -/')
    open(p,'w').write('\n'.join(L))
