#!/usr/bin/env python3
"""Generates lean/Verif/Model/UnitData.lean from the unit headers of /repo (read as text)."""
import re, os
R='/repo/scicpp/core/units/'
order=['units.hpp','chemical.hpp','electromagnetism.hpp','photometry.hpp','thermal.hpp']
PFX={'atto':(1,10**18),'femto':(1,10**15),'pico':(1,10**12),'nano':(1,10**9),'micro':(1,10**6),'milli':(1,1000),'centi':(1,100),'deci':(1,10),
'deca':(10,1),'hecto':(100,1),'kilo':(1000,1),'mega':(10**6,1),'giga':(10**9,1),'tera':(10**12,1),'peta':(10**15,1),'exa':(10**18,1)}
def num(e):
    e=e.replace('LL','').strip()
    e=e.replace('deg_to_rad_ratio::num','21053343141').replace('deg_to_rad_ratio::den','(6701487259 * 180)')
    e=e.replace('turn_to_rad_ratio::num','(2 * 21053343141)').replace('turn_to_rad_ratio::den','6701487259')
    assert re.fullmatch(r'[0-9* ()]+',e),e
    return e
def ratio(s):
    s=s.strip()
    m=re.fullmatch(r'std::(\w+)',s)
    if m: a,b=PFX[m.group(1)]; return str(a),str(b)
    if s=='deg_to_rad_ratio': return '21053343141','(6701487259 * 180)'
    if s=='turn_to_rad_ratio': return '(2 * 21053343141)','6701487259'
    m=re.fullmatch(r'std::ratio<([^,>]+)(?:,([^>]+))?>',s)
    return num(m.group(1)),num(m.group(2) or '1')
def strip(s):
    # remove comments, blank macro definitions, keep line structure
    out=[];skip=False
    for l in s.split('\n'):
        d=l.startswith('#')
        if skip or d:
            skip=l.endswith('\\'); out.append(''); continue
        out.append(re.sub(r'//.*','',l))
    return '\n'.join(out)
ali=[];lit=[]
aliasdef={}
tmpl_names="dimensionless length time mass electric_current temperature amount_of_substance luminous_intensity planar_angle solid_angle data_quantity speed acceleration angular_velocity momentum area volume force power energy work pressure frequency data_rate chemical_potential molarity molality catalytic_activity electric_potential electric_charge electrical_resistance electrical_conductivity electrical_resistivity capacitance inductance magnetic_flux_density magnetic_flux current_noise_density voltage_noise_density luminous_flux luminous_energy luminance illuminance luminous_exposure luminous_energy_density luminous_efficacy heat heat_transfer_rate heat_flux heat_capacity thermal_resistance thermal_resistivity thermal_conductivity thermal_insulance".split()
def ctor(q):
    assert q in tmpl_names,q
    return '.'+re.sub(r'_(\w)',lambda m:m.group(1).upper(),q)
for f in order:
    raw=open(R+f).read()
    s=strip(raw)
    def line(pos): return s.count('\n',0,pos)+1
    items=[]
    for m in re.finditer(r'SCICPP_CORE_UNITS_DEFINE_PREFIXES_ALIAS\(\s*(\w+),\s*(\w+)\s*\)',s):
        items.append((m.start(),'P',m))
    for m in re.finditer(r'template <typename T = double>\s*using (\w+)\s*=\s*(.*?);',s,re.S):
        items.append((m.start(),'A',m))
    for m in re.finditer(r'SCICPP_CORE_UNITS_SET_LITERAL\(\s*(\w+),\s*(\w+),\s*([^()]*?)\s*\)',s):
        items.append((m.start(),'L',m))
    for m in re.finditer(r'SCICPP_CORE_UNITS_SET_LITERAL_RATIO\(\s*(\w+),\s*(\w+),\s*([^,]+),\s*([^)]+?)\s*\)',s):
        items.append((m.start(),'LR',m))
    for m in re.finditer(r'SCICPP_CORE_UNITS_SET_LITERAL_RATIO2\(\s*(\w+),\s*(\w+),\s*([^,]+),\s*([^,]+),\s*([^,]+),\s*([^)]+?)\s*\)',s):
        items.append((m.start(),'LR2',m))
    items.sort(key=lambda t:t[0])
    for pos,k,m in items:
        w=f'{f}:{line(m.start())}' if k!='A' else f'{f}:{line(m.start(1))}'
        if k=='P':
            ali.append((w,f'prefixed {ctor(m.group(1))} "{m.group(2)}"',None))
        elif k=='A':
            nm=m.group(1); body=re.sub(r'\s+','',m.group(2))
            mm=re.fullmatch(r'(\w+)<T>',body)
            if mm and mm.group(1) in aliasdef: e=aliasdef[mm.group(1)]
            else:
                mm=re.fullmatch(r'(\w+)<T(?:,scale<(.*?)>(?:,(std::ratio<.*>))?)?>',body)
                assert mm,body
                sc=ratio(mm.group(2)) if mm.group(2) else ('1','1')
                of=ratio(mm.group(3)) if mm.group(3) else ('0','1')
                e=(mm.group(1),)+sc+of
            aliasdef[nm]=e
            ali.append((w,None,(nm,)+e))
        else:
            q,nm=m.group(1),m.group(2)
            if k=='L': e=(q,)+ratio(m.group(3))+('0','1')
            elif k=='LR': e=(q,num(m.group(3)),num(m.group(4)),'0','1')
            else: e=(q,num(m.group(3)),num(m.group(4)),num(m.group(5)),num(m.group(6)))
            lit.append((w,None,(nm,)+e))
def entry(e):
    nm,q,a,b,c,d=e
    return f'⟨"{nm}", {ctor(q)}, {a}, {b}, {c}, {d}⟩'
def cite(ch):
    by={}
    for w,_,_ in ch:
        f,n=w.split(':'); n=int(n)
        L=open('/repo/scicpp/core/units/'+f).read().split('\n')
        m=n
        while not L[m-1].rstrip().endswith((';',')')): m+=1
        by.setdefault(f,set()).update(range(n,m+1))
        if n>1 and L[n-2].startswith('template'): by[f].add(n-1)
    out=[]
    for f,ns in by.items():
        ns=sorted(ns); r=[]
        for n in ns:
            if r and r[-1][1]==n-1: r[-1][1]=n
            else: r.append([n,n])
        out.append(f'scicpp/core/units/{f}:'+', '.join(str(a) if a==b else f'{a}-{b}' for a,b in r))
    return '; '.join(out)
def block(name,doc,rows):
    # split in chunks of ~40 rows
    out=[];chunks=[]
    i=0
    while i<len(rows):
        ch=rows[i:i+40]; i+=40
        n=f'{name}{len(chunks)}'; chunks.append(n)
        groups=[];cur=[]
        lo=ch[0][0];hi=ch[-1][0]
        for w,p,e in ch:
            if p is not None:
                if cur: groups.append('['+',\n    '.join(cur)+']'); cur=[]
                groups.append(p)
            else: cur.append(entry(e))
        if cur: groups.append('['+',\n    '.join(cur)+']')
        out.append(f'/-- {doc} ({cite(ch)}). -/\ndef {n} : List UnitDef :=\n  '+' ++\n  '.join(groups)+'\n')
    out.append(f'/-- {doc}, all of them (scicpp/core/units/units.hpp:237-1080 and the four headers it includes). -/\ndef {name} : List UnitDef :=\n  '+' ++ '.join(chunks)+'\n')
    return '\n'.join(out)
head='''import Verif.Model.QTmpl
/-
  GENERATED by tools/gen_units.py from scicpp/core/units/{units,chemical,electromagnetism,photometry,
  thermal}.hpp: every unit alias and every literal, with the scale and offset as written there
  (`std::kilo` etc. replaced by their standard values).
-/
namespace SciCpp

'''
o=head+block('unitAliases','The unit aliases',ali)+'\n'+block('unitLiterals','The literal operators',lit)+'\nend SciCpp\n'
open(os.path.join(os.path.dirname(os.path.abspath(__file__)),'../lean/Verif/Model/UnitData.lean'),'w').write(o)
print(len(ali),sum(1 for a in ali if a[1]),len(lit))
# dump for checking
for w,p,e in ali: print(w,p or e)
