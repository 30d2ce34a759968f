"""Check that every citation `name` (file.py:a-b) in the model contains, in the cited range (+-2 lines),
one of the identifiers quoted in the same comment."""
import re,glob,os
repo={}
for root,_,fs in os.walk('/repo/simphox'):
    for f in fs:
        if f.endswith('.py'): repo[f]=open(os.path.join(root,f)).read().split('\n')
bad=0;tot=0
for p in sorted(glob.glob('/verif/lean/Verif/*.lean')):
    s=open(p).read()
    for m in re.finditer(r'/--(.*?)-/\s*\n?(.{0,80})',s,re.S):
        com=m.group(1)
        ids=set(re.findall(r'[A-Za-z_][A-Za-z_0-9]{2,}',' '.join(re.findall(r'`([^`]*)`',com))))
        cites=re.findall(r'([a-z_]+\.py):([0-9][0-9,\s\-]*)',com)
        for f,rs in cites:
            if f not in repo: print(p,'unknown file',f); continue
            for r in re.split(r',\s*',rs.strip().rstrip(',- ')):
                r=r.strip()
                if not re.match(r'^\d+(-\d+)?$',r): continue
                a,_,b=r.partition('-'); a=int(a); b=int(b or a); tot+=1
                if b>len(repo[f]) or a>b: print(os.path.basename(p),'range',f,r); bad+=1; continue
                txt='\n'.join(repo[f][a-1:b])
                if ids and not any(i in txt for i in ids):
                    bad+=1; print(os.path.basename(p),f,r,'|',com.strip()[:90].replace('\n',' '),'|',m.group(2)[:50].replace('\n',' '))
print(bad,'of',tot)
