MUTS=[]
def m(id,file,old,new,defn,edit,claim,nth=0,tightened=None):
    d=dict(id=id,file=file,old=old,new=new,defn=defn,edit=edit,claim=claim,nth=nth)
    if tightened: d["tightened"]=tightened
    MUTS.append(d)
m('m443','Curv/Model.lean','- diffAt D syms n (mat.get [j, k]))','- diffAt D syms n (mat.get [n, k]))','christoffelCells','third derivative term uses g_nk instead of g_jk','C139 C141 C142 C144 C145 C110 C111')
m('m444','Curv/Model.lean','(tmp.set [i, k, j] tmpvar).set [i, j, k] tmpvar','tmp.set [i, k, j] tmpvar','christoffelCells','only one triangle of the lower indices is filled','C139 C142 C145')
m('m445','Curv/Model.lean','arr.get [p, s, n] * arr.get [t, p, r] - arr.get [p, s, r] * arr.get [t, p, n]','arr.get [p, s, n] * arr.get [t, p, r] + arr.get [p, s, r] * arr.get [t, p, n]','riemannCells','sign of the quadratic term','C145 C144 C141 C111 C113')
m('m446','Curv/Model.lean','arr.get [p, s, n] * arr.get [t, p, r] - arr.get [p, s, r] * arr.get [t, p, n]','arr.get [p, s, n] * arr.get [t, p, r] - arr.get [p, s, r] * arr.get [t, p, r]','riemannCells','wrong index in the quadratic term','C145 C144 C141 C124')
m('m447','Curv/Model.lean','diffAt D syms r (arr.get [t, s, n]) - diffAt D syms n (arr.get [t, s, r])','diffAt D syms n (arr.get [t, s, n]) - diffAt D syms r (arr.get [t, s, r])','riemannCells','differentiation variables swapped','C145 C144 C122 C123')
m('m448','Curv/Model.lean','  let a ← riem.arr.tensorcontraction 0 2','  let a ← riem.arr.tensorcontraction 0 3','ricciFromRiemann','contraction over the wrong pair (sign of Ricci)','C112 C110 C113 C139')
m('m449','Curv/Model.lean','  let lo ← m.lowerConfig\n  let matinv ← lo.arr.inv','  let lo ← pure (m : MetricV R)\n  let matinv ← lo.arr.inv','christoffelFromMetric','metric not lowered before use','C22')
m('m450','Curv/Model.lean','            (sc * (g.get [i, l] * g.get [k, m] - g.get [i, m] * g.get [k, l]))))) (fun _ => 0)','            (sc * (g.get [i, m] * g.get [k, l] - g.get [i, l] * g.get [k, m]))))) (fun _ => 0)','weylCells','sign of the scalar term','C113 C22 C110')
m('m451','Tensor/Model.lean',"  mkTensor (.arr (t.arr.map sub)) (.str ['l', 'l']) none",'  mkTensor (.arr (t.arr.map sub)) (.str t.config) none','Obj.subs','repaired subs keeps the configuration: the refutation must fail','C08')
m('m452','Integ/Model.lean','return (fun i => q2 i + δ * matVec G p2 i, fun i => p1 i - δ * dp1 i)','return (fun i => q2 i + δ * matVec G p2 i, fun i => p1 i - δ * (dp1 i + p1 i))','flowA','damping of the momenta','C32 C106 C133')
m('m453','Integ/Model.lean','  let G ← evalMetric g q2\n  return (fun i => q1 i + δ * matVec G p1 i','  let G ← evalMetric g q1\n  return (fun i => q1 i + δ * matVec G p1 i','flowB','metric evaluated at the wrong copy','C106 C133 C136')
m('m454','Predef/Model.lean','let r_s := F.sqrt ((x - x_s) ^ 2 + y + z)','let r_s := F.sqrt ((x - x_s) ^ 2 + y ^ 2 + z ^ 2)','alcubierreWarp','repaired bubble radius: the refutation must fail','C87')
m('m455','Predef/Model.lean','  let metric := setSym metric 0 1 (-v * f)','  let metric := setSym metric 0 1 (v * f)','alcubierreWarp','bubble moves the other way','C126 C87')
m('m456','Predef/Model.lean','let Arn := 1 - sch / r + rQsq / r ^ 2','let Arn := 1 - sch / r - rQsq / r ^ 2','reissnerNordstorm','sign of the charge term','C89')
m('m457','Predef/Model.lean','let Arn := 1 - sch / r + rQsq / r ^ 2','let Arn := 1 - sch / r + rQsq / r','reissnerNordstorm','wrong power in the charge term','C89')
m('m458','Integ/Model.lean','let k2 := s.func (s.t + h / 2) (s.y + (h / 2) • k1)','let k2 := s.func (s.t + h / 2) (s.y + (h / 2) • k0)','RK4.step','third slope uses k0','C115 C136 C143')
m('m459','Integ/Model.lean','(k0 + (2 : ℝ) • k1 + (2 : ℝ) • k2 + k3), t := s.t + h }','(k0 + (2 : ℝ) • k1 + (2 : ℝ) • k2 + k3), t := s.t + h / 2 }','RK4.step','time advances by half a step','C115 C136')
m('m460','Integ/Model.lean','(s.t ≥ s.tBound ∧ s.direction = 1)','(s.t > s.tBound ∧ s.direction = 1)','RK4.step','one step too many at the bound','C115 C136')
m('m461','Tensor/Model.lean',"let t' ← if ch = 'u' then contractSlot tm 1 t i else contractSlot tm 0 t i","let t' ← contractSlot tm 1 t i",'lorentzLoop','lower indices transformed like upper ones','C129')
m('m462','Tensor/Model.lean','tensorcontraction i (t1.config.length + j)','tensorcontraction i (t1.config.length + j + 1)','tensorProductAt','contracts the next slot of the second factor','C128')
m('m463','Tensor/Model.lean','    if c1 = c2 then .error .valueError','    if c1 ≠ c2 then .error .valueError','tensorProductAt','contracts equal positions','C128')
