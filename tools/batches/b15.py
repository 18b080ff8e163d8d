MUTS=[]
def m(id,file,old,new,defn,edit,claim,nth=0,tightened=None):
    d=dict(id=id,file=file,old=old,new=new,defn=defn,edit=edit,claim=claim,nth=nth)
    if tightened: d["tightened"]=tightened
    MUTS.append(d)
m("m436","Geodesic/Bound.lean","![40, Real.pi / 2, 0] ![0, 0, 3.83405] true { steps := 5500, delta := 1 }","![40, Real.pi / 2, 0] ![0, 0, 3.83405] true { steps := 5000, delta := 1 }","precession","wrong number of steps","C138")
m("m437","Geodesic/Bound.lean","![40, Real.pi / 2, 0] ![0, 0, 3.83405] true { steps := 5500, delta := 1 }","![40, Real.pi / 2, 0] ![0, 0, 3.83405] false { steps := 5500, delta := 1 }","precession","photon instead of a massive particle","C138")
m("m438","Geodesic/Bound.lean","![40, Real.pi / 2, 0] ![0, 0, 3.83405] true { steps := 5500, delta := 1 }","![40, Real.pi / 2, 0] ![0, 3.83405, 0] true { steps := 5500, delta := 1 }","precession","polar instead of axial momentum","C138")
m("m439","Geodesic/Bound.lean","![40, Real.pi / 2, 0] ![0, 0, 3.83405] true { steps := 5500, delta := 1 }","![40, Real.pi / 3, 0] ![0, 0, 3.83405] true { steps := 5500, delta := 1 }","precession","not in the equatorial plane","C138")
m("m440","Dual/Compare.lean","  | .dual _ => .error .typeError","  | .dual _ => .ok ()","Val.hashable","dual numbers hashable although __eq__ is defined","C127")
m("m441","Curv/FloatIndex.lean","(floatDigit rnd dims t (dims ^ 3), floatDigit rnd dims t (dims ^ 2), floatDigit rnd dims t dims, t % dims)","(floatDigit rnd dims t (dims ^ 3), floatDigit rnd dims t (dims ^ 2), floatDigit rnd dims t (dims ^ 2), t % dims)","decode4","third digit divides by dims^2","C24")
m("m442","Curv/FloatIndex.lean","(floatDigit rnd dims t (dims ^ 2), floatDigit rnd dims t dims, t % dims)","(floatDigit rnd dims t (dims ^ 2), floatDigit rnd dims t dims, t % (dims + 1))","decode3","last digit modulo dims+1","C24")
