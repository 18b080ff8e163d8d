MUTS=[]
def m(id,old,new,defn,edit,claim,nth=0,file=None,tightened=None):
    d=dict(id=id,file=file,old=old,new=new,defn=defn,edit=edit,claim=claim,nth=nth)
    if tightened: d["tightened"]=tightened
    MUTS.append(d)
F="Integ/Model.lean"
T=["C104_second_order (new)","C105_converges (new)"]
m("m195","fun i => ∑ j, M i j * v j","fun i => 2 * ∑ j, M i j * v j","matVec","both flows run at twice the speed (symplectic, reversible, but not Hamilton's equations)","C104",file=F,tightened=T)
m("m196","fun i => ∑ j, M i j * v j","fun i => -∑ j, M i j * v j","matVec","flows run backwards","C104",file=F,tightened=T)
m("m197","let b2 ← flowB g HC.q1 HC.p1 HC.q2 HC.p2 (0.5 * δ)","let b2 ← flowB g HC.q1 HC.p1 HC.q2 HC.p2 δ","ord2","one half step is a full step","C104",file=F)
m("m198","let x : ℝ := 2 ^ (1 / (2 * n + 1))","let x : ℝ := 2 ^ (1 / (2 * n + 2))","yoshidaZ","wrong root","C104",file=F)
m("m199","  let s1 ← ord2 c s (δ * Z.2)\n  let s2 ← ord2 c s1 (δ * Z.1)\n  ord2 c s2 (δ * Z.2)","  let s1 ← ord2 c s (δ * Z.1)\n  let s2 ← ord2 c s1 (δ * Z.2)\n  ord2 c s2 (δ * Z.1)","ord4","weights exchanged","C104",file=F)
m("m200","let HC : PS := flowMixed HB1.q1 HB1.p1 HB1.q2 HB1.p2 δ c.omega","let HC : PS := flowMixed HB1.q1 HB1.p2 HB1.q2 HB1.p1 δ c.omega","ord2","momenta of the copies exchanged before mixing","C104",file=F)
m("m201","0.5 * ((q1 i + q2 i) - (q1 i - q2 i) * c - (p1 i - p2 i) * s)","0.5 * ((q1 i + q2 i) + (q1 i - q2 i) * c - (p1 i - p2 i) * s)","flowMixed","sign in the second copy","C104",file=F)
m("m202","return (fun i => q2 i + δ * matVec G p2 i, fun i => p1 i - δ * dp1 i)","return (fun i => q2 i + δ * matVec G p1 i, fun i => p1 i - δ * dp1 i)","flowA","momentum of the wrong copy","C104",file=F)
m("m203","return (fun i => q2 i + δ * matVec G p2 i, fun i => p1 i - δ * dp1 i)","return (fun i => q2 i + δ * matVec G p2 i, fun i => p1 i + δ * dp1 i)","flowA","sign of the force","C104",file=F)
