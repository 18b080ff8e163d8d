MUTS=[]
def m(id,file,old,new,defn,edit,claim,nth=0,tightened=None):
    d=dict(id=id,file=file,old=old,new=new,defn=defn,edit=edit,claim=claim,nth=nth)
    if tightened: d["tightened"]=tightened
    MUTS.append(d)
m("m431","Integ/Model.lean","  let s := Real.sin (2 * ω * δ)","  let s := Real.sin (2 * ω * |δ|)","flowMixed","mixing angle ignores the sign of delta","C30, C134")
m("m432","Geodesic/Model.lean","  let B := 2 * guu 0 3 * p 2","  let B := 2 * guu 0 3 * |p 2|","fourMomentum","sense of rotation ignored","C37, C116")
m("m433","Geodesic/Model.lean","(if timeLike then 1 else 0)\n  if B","(if timeLike then 1 else 1)\n  if B","fourMomentum","null momentum normalised to -1","C37, C135")
m("m434","Geodesic/Model.lean","  [t, r * Real.sin th * Real.cos ph, r * Real.sin th * Real.sin ph, r * Real.cos th,","  [t, r * Real.sin th * Real.cos ph, r * Real.sin th * |Real.sin ph|, r * Real.cos th,","cartRow","y always positive","C40, C134")
m("m435","Geodesic/Model.lean","(.sub (.pow (.add a2 r2) 2) (.mul (.mul a2 dl) sint2))) denom)","(.sub (.pow (.add a2 r2) 2) (.mul (.mul a2 dl) (.const 1)))) denom)","kerrNewmanFn","sin^2 theta dropped in g^tt (right on the equator)","C38, C137")
