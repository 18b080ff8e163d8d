MUTS=[]
def m(id,old,new,defn,edit,claim,nth=0,file=None,tightened=None):
    d=dict(id=id,file=file,old=old,new=new,defn=defn,edit=edit,claim=claim,nth=nth)
    if tightened: d["tightened"]=tightened
    MUTS.append(d)
P="Misc/Plot.lean"
m("m278","⟨.filled, \"BH Event Horizon (Outer)\", (linspace 0 (2 * Real.pi) 50)","⟨.filled, \"BH Event Horizon (Outer)\", (linspace 0 Real.pi 50)","horizon2","half circle","C59",file=P,tightened=["C59_horizon_covered"])
m("m283","(x.zip y).map fun p => (.ok p.1, .ok p.2, .ok 0)","(x.zip y).map fun p => (.ok p.2, .ok p.1, .ok 0)","zip2","axes exchanged","C83",file=P,tightened=["C83_plot2D","C83_parametric"])
m("m308","s.any (fun c => c.isAlpha) && s.all (fun c => !c.isUpper)","s.all (fun c => !c.isUpper)","strIsLower","strings without letters are lower case","C66",file="Predef/Find.lean",tightened=["C66_exact"])
m("m330","  | .cart => (.speed, .speed, .speed)\n  | _ => (.speed, .angularSpeed, .angularSpeed)","  | _ => (.speed, .speed, .speed)","Sys.velDim","angular speeds not required","C79",file="Coord/Objects.lean",tightened=["C79_differential_constructor"])
S="Misc/Smooth.lean"
m("m345","fb2 := b_new.map fun b => -1 * b })","fb2 := sh.fb2 })","Shadow.smoothen","mirror image not updated","C119",file=S)
m("m346","| .error e => (.error e, sh)","| .error e => (.error e, { sh with fb1 := [] })","Shadow.smoothen","object changed on failure","C119",file=S)
m("m347","let b_new := linspace mn mx points","let b_new := linspace 0 mx points","Shadow.smoothen","grid from 0","C119",file=S)
m("m348","let b_new := linspace mn mx points","let b_new := linspace mn mx (points + 1)","Shadow.smoothen","one point too many","C119",file=S)
m("m349","let smoothened ← interpolation b_new","let smoothened ← interpolation sh.fb1","Shadow.smoothen","interpolated at the old positions","C119",file=S)
m("m350","(fun i => q1 i + δ * matVec G p1 i, fun i => p2 i - δ * dp2 i)","(fun i => q1 i + δ * matVec G p2 i, fun i => p2 i - δ * dp2 i)","flowB","wrong copy of the momentum","C120/C31",file="Integ/Model.lean")
