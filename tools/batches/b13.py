MUTS=[]
def m(id,file,old,new,defn,edit,claim,nth=0,tightened=None):
    d=dict(id=id,file=file,old=old,new=new,defn=defn,edit=edit,claim=claim,nth=nth)
    if tightened: d["tightened"]=tightened
    MUTS.append(d)
m("m424","Tensor/Model.lean","    | .otherSized n => if d ≠ n then some .valueError else none","    | .otherSized n => if d < n then some .valueError else none","shapeCheck","too few symbols accepted","C07",tightened=["C07_error_kind"])
m("m425","Num/Model.lean","    -2 * (chl 3 0 1 * v 0 * v 1 + chl 3 0 2 * v 0 * v 2 + chl 3 1 3 * v 1 * v 3 + chl 3 2 3 * v 2 * v 3)]","    -2 * (chl 3 0 1 * v 0 * v 1 + chl 3 0 2 * v 0 * v 2 + chl 3 1 3 * v 1 * v 3 + chl 3 2 3 * v 2 * v 0)]","accel","last product uses dt instead of dphi","C130")
m("m426","Num/Model.lean","    let F02 := (r * r_Q * drho2_dtheta) / rho2 ^ 2","    let F02 := (r * r_Q * al ^ 2 * Real.cos th ^ 2) / rho2 ^ 2","KerrNewman.emTensorCov","F02 even under reflection","C130")
m("m427","Num/Model.lean","    -2 * chl 2 2 1 * v 2 * v 1 - 1 * chl 2 3 3 * v 3 ^ 2,","    -2 * chl 2 2 1 * v 2 * v 1 - 1 * chl 2 3 3 * v 3,","Schwarzschild.fVecS","square dropped in the theta line","C130, C132")
m("m428","Num/Model.lean","    let chl := Tab3.set chl 1 0 0 (0.5 * r_s * (r - r_s) * k.c ^ 2 / r ^ 3)","    let chl := Tab3.set chl 1 0 0 (0.5 * r_s * (r - r_s) * k.c ^ 2 / r ^ 2)","Schwarzschild.chSymS","wrong power of r","C131, C132")
m("m429","Num/Model.lean","    let dddr := 2 * r - m.schRad\n    let p03","    let dddr := 2 * r + m.schRad\n    let p03","KerrNewman.dgdxBl","sign of r_s in dDelta/dr","C132")
m("m430","Integ/RKPy.lean","(h / 6)","(h / 5)","RK4Py.step","wrong weight","C132")
m("m431","Tensor/Model.lean","tensorProductAt","tensorProductAt","x","x","x")
MUTS.pop()
