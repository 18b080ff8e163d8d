MUTS=[]
def m(id,file,old,new,defn,edit,claim,nth=0,tightened=None):
    d=dict(id=id,file=file,old=old,new=new,defn=defn,edit=edit,claim=claim,nth=nth)
    if tightened: d["tightened"]=tightened
    MUTS.append(d)
m('m464','Num/Model.lean','    -2 * chl 2 2 1 * v 2 * v 1 - 1 * chl 2 3 3 * v 3 ^ 2,','    -2 * chl 2 2 1 * v 2 * v 1 + 1 * chl 2 3 3 * v 3 ^ 2,','Schwarzschild.fVecS','sign of the centrifugal term in the polar equation','C117 C121 C137 C131')
m('m465','Num/Model.lean','    -2 * (chl 3 3 1 * v 3 * v 1 + chl 3 3 2 * v 3 * v 2)])','    -2 * (chl 3 3 1 * v 3 + chl 3 3 2 * v 3 * v 2)])','Schwarzschild.fVecS','radial velocity dropped (right hand side no longer quadratic)','C121 C117 C114')
m('m466','Num/Model.lean','+ chl 2 2 2 * v 2 * v 2 + chl 2 3 3 * v 3 * v 3),','+ chl 2 2 2 * v 2 * v 2 + chl 2 3 3 * v 3),','accel','one factor of the angular velocity dropped','C121 C117 C137')
m('m467','Num/Model.lean','-2 * (chl 3 0 1 * v 0 * v 1 + chl 3 0 2 * v 0 * v 2 + chl 3 1 3 * v 1 * v 3','-2 * (chl 3 0 1 * v 0 * v 1 + chl 3 0 2 * v 0 * v 2 + 2 * chl 3 1 3 * v 1 * v 3','accel','mixed term counted twice','C114 C117 C140')
m('m468','Num/Model.lean','accel chl v - m.q • (Matrix.vecMul (F.mulVec v) g)','accel chl v - (m.q + 1) • (Matrix.vecMul (F.mulVec v) g)','KerrNewman.fVecBl','uncharged particle feels the field','C117 C114 C121 C137')
m('m469','Dual/Model.lean','    if y.deriv = 0 then .error .zeroDivisionError else .ok ⟨x.deriv / y.deriv, 0⟩','    if y.deriv = 0 then .error .zeroDivisionError else .ok ⟨y.deriv / x.deriv, 0⟩','Dual.truediv','quotient of the derivatives upside down at 0/0','C27')
m('m470','Integ/Model.lean','   fun i => 0.5 * ((p1 i + p2 i) - (p1 i - p2 i) * c + (q1 i - q2 i) * s))','   fun i => 0.5 * ((p1 i + p2 i) - (p1 i - p2 i) * c - (q1 i - q2 i) * s))','flowMixed','second momentum rotated the wrong way','C29')
m('m471','Misc/Shadow.lean','if root.im = 0 then return (i, root.re) :: rest else return rest','if root.im = 0 then return (root.re, i) :: rest else return rest','turningPoints','impact parameter and radius exchanged','C80 C57')
m('m472','Predef/Model.lean','(diag [-1, 1 / c2, (r ^ 2) / c2, (r ^ 2 * F.sin th ^ 2) / c2])','(diag [-1, 1 / c2, (r ^ 2) / c2, (r ^ 2 * F.sin th) / c2])','minkowskiPolar','square of the sine dropped','C63')
m('m473','Predef/Model.lean','F.pow t (4 / 3) * expr, F.pow t (-2 / 3) / expr','F.pow t (4 / 3) * expr, F.pow t (2 / 3) / expr','davidson','sign of the exponent of g_zz','C94')
m('m474','Predef/Model.lean','1 / (lambd * (c ^ 2)),\n    (F.sin th ^ 2)','1 / (c ^ 2),\n    (F.sin th ^ 2)','bertottiKasner','radius of the spheres forgotten','C90')
m('m475','Predef/Model.lean','F.cos t ^ 2 * F.sinh ch ^ 2, F.cos t ^ 2 * F.sinh ch ^ 2 * F.sin th ^ 2','F.cos t ^ 2 * F.cosh ch ^ 2, F.cos t ^ 2 * F.cosh ch ^ 2 * F.sin th ^ 2','antiDeSitter','cosh for sinh','C118')
m('m476','Predef/Model.lean','-((r ^ 2 + a ^ 2 + (sch * r * (a ^ 2) * (F.sin theta ^ 2) / Sigma)) * (F.sin theta ^ 2)) / c2]','-((r ^ 2 + a ^ 2 - (sch * r * (a ^ 2) * (F.sin theta ^ 2) / Sigma)) * (F.sin theta ^ 2)) / c2]','kerr','sign of the rotation term of g_phi phi','C140 C85 C66')
m('m477','Geodesic/Model.lean','  let B := 2 * guu 0 3 * p 2','  let B := guu 0 3 * p 2','fourMomentum','factor two of the mixed term dropped','C135 C116 C109 C137')
m('m478','Geodesic/Model.lean','guu 2 2 * p 1 * p 1 + guu 3 3 * p 2 * p 2 + (if timeLike','guu 2 2 * p 1 + guu 3 3 * p 2 * p 2 + (if timeLike','fourMomentum','polar momentum not squared','C116 C135 C109')
m('m479','Num/Model.lean','  let r_Q2 := Q ^ 2 * k.G * k.Cc / k.c ^ 4\n  return r ^ 2 - r_s * r + alpha ^ 2 + r_Q2','  let r_Q2 := Q ^ 2 * k.G * k.Cc / k.c ^ 4\n  return r ^ 2 - r_s * r + alpha ^ 2 - r_Q2','delta','sign of the charge term in Delta','C69 C140 C85')
