MUTS=[]
def m(id,old,new,defn,edit,claim,nth=0,file=None,tightened=None):
    d=dict(id=id,file=file,old=old,new=new,defn=defn,edit=edit,claim=claim,nth=nth)
    if tightened: d["tightened"]=tightened
    MUTS.append(d)
F="Num/Model.lean"
m("m237","2 * k.G * M / k.c ^ 2","k.G * M / k.c ^ 2","schwarzschildRadius","factor 2 lost","C73",file=F)
m("m238","  return Real.sqrt sg","  return sg","rho","square root dropped","C68/C69",file=F)
m("m239","  let g ← cov x\n  npInv g","  let g ← cov x\n  return g","contraOf","contravariant metric returns the covariant one","C71",file=F)
m("m240",'⟨"Schwarzschild Metric", system, M, 0, 0, 0, schwarzschildRadius k M⟩','⟨"Schwarzschild Metric", system, M, 1, 0, 0, schwarzschildRadius k M⟩',"Schwarzschild.new","spin 1 instead of 0","C48/C73",file=F)
m("m241",'if m.system = "Spherical" then Schwarzschild.gCovS k m x else','if m.system ≠ "BoyerLindquist" then Schwarzschild.gCovS k m x else',"Schwarzschild.metricCovariant","accepts unknown systems","C49",file=F)
m("m242",'if m.system = "Spherical" then Schwarzschild.fVecS k m x v else','if m.system ≠ "BoyerLindquist" then Schwarzschild.fVecS k m x v else',"Schwarzschild.fVec","accepts Cartesian","C49",file=F)
m("m243",'if m.system = "BoyerLindquist" then Kerr.gCovBl k m x else .error .coordinateError','if m.system = "BoyerLindquist" then Kerr.gCovBl k m x else .error .valueError',"Kerr.metricCovariant","wrong exception","C49",file=F)
m("m244",'if m.system = "BoyerLindquist" then Kerr.fVecBl k m x v else','if m.system ≠ "Spherical" then Kerr.fVecBl k m x v else',"Kerr.fVec","dispatch accepts Cartesian (inner christoffels still refuse)","C49",file=F)
m("m247","(1, 3, 0), (1, 0, 3), (2, 0, 3), (2, 3, 0)","(1, 3, 0), (1, 0, 3), (2, 3, 0)","ncDgdx","(2,0,3) missing","C44",file=F)
m("m248","    let i := (t / 16) % 4\n","    let i := (t / 8) % 4\n","nonzeroChristoffels","wrong divisor","C44",file=F)
m("m249",'⟨"Kerr-Newman Metric", system, M, a, Q, q, schwarzschildRadius k M⟩','⟨"Kerr-Newman Metric", system, M, a, q, Q, schwarzschildRadius k M⟩',"KerrNewman.new","charges exchanged","C46/C70/C72",file=F)
m("m250","let dddr := 2 * r - m.schRad\n    let p03","let dddr := 2 * r + m.schRad\n    let p03","KerrNewman.dgdxBl","sign","C68",file=F)
m("m251","- 4 * r ^ 3 - 4 * (r * al ^ 2)","- 4 * r ^ 3 - 2 * (r * al ^ 2)","KerrNewman.dgdxBl","coefficient","C68",file=F)
m("m252","0, -drh2dth / dl, 0, 0","0, drh2dth / dl, 0, 0","KerrNewman.dgdxBl","sign of d_theta g_rr","C68",file=F)
m("m253","  let dg ← KerrNewman.dgdxBl k m x\n  return chSymLoops gc dg","  let dg ← Kerr.dgdxBl k m x\n  return chSymLoops gc dg","KerrNewman.chSymBl","uses Kerr derivatives","C68",file=F)
m("m255","  let gc ← contraOf (KerrNewman.metricCovariant k m) x\n  return gc.mulVec A","  let gc ← KerrNewman.metricCovariant k m x\n  return gc.mulVec A","KerrNewman.emPotentialContra","raised with the covariant metric","C47",file=F)
m("m256","  return gc * F * gc","  return gc * F","KerrNewman.emTensorContra","only one index raised","C47",file=F)
m("m257",'if m.system = "BoyerLindquist" then KerrNewman.fVecBl k m x v else','if m.system ≠ "Spherical" then KerrNewman.fVecBl k m x v else',"KerrNewman.fVec","dispatch","C49",file=F)
m("m258",'if m.system = "BoyerLindquist" then KerrNewman.gCovBl k m x else','if m.system ≠ "Spherical" then KerrNewman.gCovBl k m x else',"KerrNewman.metricCovariant","dispatch","C49",file=F)
U="Num/Units.lean"
m("m259","if q.dim = d then .ok q else .error .valueError","if q.dim = d then .ok q else .ok q","quantityInput","unit check dropped","C72",file=U)
T="Tensor/Model.lean"
m("m260","config.all fun ch => ¬ ((¬ ch = 'l') ∧ (¬ ch = 'u'))","config.any fun ch => ¬ ((¬ ch = 'l') ∧ (¬ ch = 'u'))","configChecker","one valid character suffices","C03/C07",file=T)
m("m261","  | .christoffel => some 3\n","  | .christoffel => some 2\n","Kind.order","christoffel order 2","C07",file=T)
m("m262","    | .otherSized n => if d ≠ n then some .valueError else none","    | .otherSized n => none","shapeCheck","sized non-sequences not compared (both raise, different class)","C07",file=T)
m("m263","    | .seq s => if d ≠ s.length then some .valueError else none","    | .seq s => if d < s.length then some .valueError else none","shapeCheck","too few symbols accepted","C07",file=T)
m("m264","        if t.config.length = n then return { t with kind := k, order := n }\n        else throw .valueError","        return { t with kind := k, order := n }","mkKind","order check dropped","C07",file=T)
m("m265","      let t ← mkBase arr syms (.str []) parent name","      let t ← mkBase arr syms config parent name","mkKind (RicciScalar)","config not forced empty","C07",file=T)
m("m266","    if n = m then\n      if IsUnit","    if True then\n      if IsUnit","NDArr.inv","non-square matrices inverted","C09",file=T)
m("m268","  if m.config = ['l', 'l'] then m.changeConfig ['u', 'u'] else m.changeConfig ['l', 'l']","  m.changeConfig ['u', 'u']","MetricV.inv","inverse of a contravariant metric is itself","C09",file=T)
m("m269","  if m.config = ['l', 'l'] then .ok m else m.inv","  .ok m","MetricV.lowerConfig","contravariant metric returned as is","C10",file=T)
m("m270","((List.range n).erase 0).insertIdx i 0","((List.range n).erase 0).insertIdx 0 0","destPerm","new axis left in front","C01",file=T)
m("m271","(if action = 1 then up else lo) 1 t i","(if action = 1 then lo else up) 1 t i","chainConfigChange","raise and lower exchanged","C01",file=T)
m("m272","    if action = 0 then chainConfigChange lo up rest (i + 1) t","    if action = 0 then chainConfigChange lo up rest i t","chainConfigChange","slot counter not advanced on unchanged slots","C01",file=T)
m("m273","  | .stressEnergy => some .einstein","  | .stressEnergy => some .stressEnergy","Kind.changeConfigTarget","class of the result fixed (refutation must notice)","C23",file=T)
m("m274","    match (metric <|> t.parent) with","    match (t.parent <|> metric) with","Obj.changeConfig","stored metric wins over the argument","C01/C03",file=T)
m("m275","  | some 0 => j\n","  | some 0 => some 0\n","pyOr","0 treated as given","C04",file=T)
