F="Num/Model.lean"
MUTS=[]
def m(id,old,new,defn,edit,claim,nth=0,file=F): MUTS.append(dict(id=id,file=file,old=old,new=new,defn=defn,edit=edit,claim=claim,nth=nth))
m("m051","if a < 0 ∨ a > 1 then","if a < 0 ∨ a ≥ 1 then","alpha","extreme spin refused","C41")
m("m052","r ^ 2 + (alpha * Real.cos theta) ^ 2","r ^ 2 + (alpha * Real.sin theta) ^ 2","sigma","sin for cos","C48, C73")
m("m053","r ^ 2 - r_s * r + alpha ^ 2 + r_Q2","r ^ 2 - r_s * r + alpha ^ 2","delta","charge dropped from Delta","C48")
m("m054","do return (r_s - (← npSqrt (r_s ^ 2 - 4 * alpha ^ 2 - 4 * r_Q2))) / 2,","do return (r_s - (← npSqrt (r_s ^ 2 - 4 * alpha ^ 2))) / 2,","singularities","charge missing in the inner horizon","C48")
m("m055",'if m.name = "Kerr Metric" ∨ m.name = "Kerr-Newman Metric" then','if m.name = "Kerr Metric" then',"singularities","Kerr-Newman treated as Schwarzschild","C48, C49")
m("m056","return g + h","return h","baseMetricCovariant","perturbation replaces the metric","C71")
m("m057","-((r * Real.sin th) ^ 2)]","-(r * Real.sin th) ]","Schwarzschild.gCovS","square dropped","C73, C42")
m("m058","chl 1 2 2 (r_s - r)","chl 1 2 2 (r - r_s)","Schwarzschild.chSymS","sign of Gamma^r_thth","C42")
m("m059","let v := -chl 1 1 1","let v := chl 1 1 1","Schwarzschild.chSymS","sign of Gamma^t_tr","C42")
m("m060","-2 * (chl 3 3 1 * v 3 * v 1 + chl 3 3 2 * v 3 * v 2)])","-2 * (chl 3 3 1 * v 3 * v 1) ])","Schwarzschild.fVecS","theta-phi term dropped","C45")
m("m061","(1, 0, 3), (1, 1, 2), (2, 0, 3), (2, 1, 2), (1, 2, 1)","(1, 0, 3), (1, 1, 2), (2, 0, 3), (2, 2, 1), (1, 2, 1)","nonzeroListBl","index pair swapped in the table","C44")
m("m062","let g03 := (k.c * r_s * r * al * Real.sin th ^ 2) / sg","let g03 := (r_s * r * al * Real.sin th ^ 2) / sg","Kerr.gCovBl","factor c lost in g_tphi","C73, C43")
m("m063","let dsdth := -(al ^ 2) * Real.sin (2 * th)","let dsdth := -(al ^ 2) * Real.sin th","Kerr.dgdxBl","wrong angle","C43")
m("m064","let v3 := 0.5 * (gc 3 0 * val1 + gc 3 3 * val2)","let v3 := 0.5 * (gc 3 0 * val2 + gc 3 3 * val1)","chSymLoops","swapped factors","C44, C68")
m("m065","(dg l i kk + dg kk i l - dg i kk l)))) chl","(dg l i kk + dg kk i l))) ) chl","chSymLoops","last term dropped","C44, C68")
m("m066","2 * chl 1 0 3 * v 0 * v 3 + chl 1 1 1","chl 1 0 3 * v 0 * v 3 + chl 1 1 1","accel","factor 2 of a mixed term dropped","C45, C70")
m("m067","let dl ← delta k r m.M m.a 0\n  if rho2","let dl ← delta k r m.M m.a m.Q\n  if rho2","KerrNewman.gCovBl","charge passed to delta (repairs the defect)","C46 refutation, C68")
m("m068","-r * al * r_Q * Real.sin th ^ 2 / rho2]","-r * al * r_Q * Real.sin th / rho2]","KerrNewman.emPotentialCov","square dropped","C47")
m("m069","let F13 := (1 / rho2 ^ 2) * (al * r_Q * Real.sin th ^ 2) * (rho2 - 2 * r ^ 2)","let F13 := -(1 / rho2 ^ 2) * (al * r_Q * Real.sin th ^ 2) * (rho2 - 2 * r ^ 2)","KerrNewman.emTensorCov","sign of F_rphi (repairs half the defect)","C47 partial/refutation")
m("m070","              -F02, 0, 0, F23;","              F02, 0, 0, F23;","KerrNewman.emTensorCov","not antisymmetric","C47")
m("m071","accel chl v - m.q • (Matrix.vecMul (F.mulVec v) g))","accel chl v - (Matrix.vecMul (F.mulVec v) g))","KerrNewman.fVecBl","charge of the particle ignored","C70")
m("m072","accel chl v - m.q • (Matrix.vecMul (F.mulVec v) g))","accel chl v - m.q • (F.mulVec (g.mulVec v)))","KerrNewman.fVecBl","index contracted correctly (repairs the defect)","C70 refutation")
m("m073","let D := B ^ 2 - 4 * A * C\n","let D := B ^ 2 + 4 * A * C\n","v0","discriminant sign","C50")
m("m074","return (-B + s) / (2 * A)","return (-B - s) / (2 * A)","v0","past-directed root","C50")
m("m075","+ 2 * v2 * g 2 3 * v3 + fac","+ v2 * g 2 3 * v3 + fac","v0","factor 2 dropped","C50")
m("m076","if IsUnit g.det then .ok g⁻¹","if IsUnit g.det then .ok g","npInv","metric returned instead of its inverse","C71")
m("m077",'if m.system = "BoyerLindquist" then Kerr.chSymBl k m x','if m.system ≠ "Cartesian" then Kerr.chSymBl k m x',"Kerr.christoffels","spherical coordinates accepted","C49")
m("m078","⟨\"Kerr Metric\", system, M, a, 0, 0, schwarzschildRadius k M⟩","⟨\"Kerr Metric\", system, M, a, 0, 0, schwarzschildRadius k a⟩","Kerr.new","swapped argument","C73")
m("m079","def primitive (q : Quantity) : ℝ := q.value","def primitive (q : Quantity) : ℝ := q.value * q.scale","primitive","converts to SI (repairs the defect)","C72 refutation",file="Num/Units.lean")
m("m080","let a ← quantityInput a .one\n  let Q ←","let Q ←","KerrNewman.make","spin not checked","C72",file="Num/Units.lean")
