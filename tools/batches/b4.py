O="Coord/Objects.lean"
MUTS=[]
def m(id,old,new,defn,edit,claim,nth=0,file=None,tightened=None):
    d=dict(id=id,file=file,old=old,new=new,defn=defn,edit=edit,claim=claim,nth=nth)
    if tightened: d["tightened"]=tightened
    MUTS.append(d)
T=["C79_positions","C79_velocities"]
m("m100","![k.c * o.t.si, o.a.si, o.b.si, o.c.si]","![0 * k.c + o.t.si, o.a.si, o.b.si, o.c.si]","DiffObj.position","c forgotten in x0","C75/C76",file=O,nth=1)
m("m106","(.ofSI v.a tgt.velDim.1) (.ofSI v.b tgt.velDim.2.1) (.ofSI v.c tgt.velDim.2.2)","(.ofSI v.a tgt.velDim.1) (.ofSI v.c tgt.velDim.2.1) (.ofSI v.b tgt.velDim.2.2)","DiffObj.to","velocities swapped","C75",file=O,tightened=T)
m("m107","| .sph, .bl => do let (M, a) ← kw.get; Spherical.convertBl k s","| .sph, .bl => do let (M, a) ← kw.get; Cartesian.convertBl k s","convertTo","wrong base class","C75",file=O,tightened=T)
F="Misc/Cosmo.lean"
m("m109","(← npPow T (2 / 3))","(← npPow T (1 / 3))","scalarFactor","exponent 1/3 for matter","C55",file=F)
m("m110","return (2 / 3) * tuning * (← npPow T (-1 / 3))","return (2 / 3) * tuning * (← npPow T (1 / 3))","scalarFactorDerivative","sign of the exponent","C55",file=F)
m("m111","return tuning * (hubbleConst * Real.exp (hubbleConst * T))","return tuning * Real.exp (hubbleConst * T)","scalarFactorDerivative","inner derivative forgotten","C55",file=F)
m("m112","let t ← checkDim t .time\n  let T := t.si\n  if era = \"md\" then return (2","let T := t.value\n  if era = \"md\" then return (2","scalarFactorDerivative","raw value, no unit check","C55",file=F)
m("m113","Real.sqrt (cosmoConst / 3)","cosmoConst / 3","hubbleConst","square root forgotten","C55",file=F)
F="Misc/Embedding.lean"
m("m114","let M := m / 10e22","let M := m","Embedding.new","mass unit forgotten","C77",file=F)
m("m115","num_one * num_two","num_one","Embedding.gradient","a factor dropped","C56",file=F)
m("m116","(4 * e.M * r - 9 * e.M * e.M)","(4 * e.M * r - 9 * e.M)","Embedding.gradient","square dropped","C56",file=F)
m("m117","s.xs ++ [e.radialCoord s.r]","s.xs ++ [e.radialCoord (s.r + dr)]","Embedding.body","sample after the step","C77",file=F)
m("m118","(e.body h (-h)) ⟨e.rInit, .ok 0, s1.xs, s1.ys⟩","(e.body h (-h)) ⟨e.rInit, s1.z, s1.xs, s1.ys⟩","GetValues","height not reset for the inward loop","C77",file=F)
m("m119","s.r > 9 * e.M / 4","s.r > 2 * e.M","GetValues","inner bound at the horizon","C77",file=F)
m("m120","(List.range (x_len - 1)).foldl","(List.range x_len).foldl","surfaceOf","one copy too many","C78",file=F)
m("m121","x) * Real.sin p⟩","x) * Real.cos p⟩","surfaceOf","cos for sin","C78",file=F)
F="Misc/Shadow.lean"
m("m122","3 * Real.sqrt 3 * M","2 * Real.sqrt 3 * M","bCrit","wrong critical impact parameter","C57",file=F)
m("m123","let Gred ← npDiv 1 ((← npDiv 1 GTT) + K","let Gred ← npDiv 1 ((← npDiv 1 GTT) - K","intensityRed","sign of the Doppler term","C81",file=F)
m("m124","if root.im = 0 then return (i, root.re) :: rest else return rest","return (i, root.re) :: rest","turningPoints","complex roots kept","C80/C81",file=F)
m("m125","linspace limit (bCrit M) bfin.length","linspace limit (bCrit M) n_rays","Shadow.new","wrong number of inner rays","C81",file=F)
m("m126","b2.map (fun x => -x) ++ bfin.map (fun x => -x)","b2.map (fun x => -x) ++ bfin","Shadow.new","second branch not mirrored","C81",file=F)
m("m127","k1 ++ k0, b2 ++ bfin","k0 ++ k1, b2 ++ bfin","Shadow.new","intensities in the wrong order","C81",file=F)
m("m128","(fun r => intensityRed M r b) (2 * M) fov","(fun r => intensityRed M r b) fov (2 * M)","intensityBelow","limits swapped","C81",file=F)
F="Misc/Fractal.lean"
m("m129","‖s.z‖ < zabs_max ∧ s.it < iter_max","‖s.z‖ < zabs_max ∧ s.it ≤ iter_max","JuliaLoop","one iteration too many","C58",file=F)
m("m130","⟨s.z ^ 2 + c, s.it + 1⟩","⟨s.z ^ 3 + c, s.it + 1⟩","JuliaLoop","cubic map","C58/C82",file=F)
m("m131","fun a b => if a = i ∧ b = j then","fun a b => if a = j ∧ b = i then","Img.set","indices swapped","C82",file=F)
m("m132","(j:ℝ) / (p.h:ℝ) * (p.ymax - p.ymin)","(j:ℝ) / (p.w:ℝ) * (p.ymax - p.ymin)","JParams.start","width for height","C82",file=F)
m("m133",".set i true",".set 0 true","sliderStep","always the first trace","C82",file=F)
m("m134","(List.range p.h) A r","(List.range p.w) A r","FractalImg","inner loop over width","C82",file=F)
F="Misc/Plot.lean"
m("m135","1 + (← Num.npSqrt (1 - a ^ 2))","1 - (← Num.npSqrt (1 - a ^ 2))","rhOuter","inner horizon","C59",file=F)
m("m136","if ergo then [ergosphere3 a] else []","[ergosphere3 a]","drawBh","ergosphere drawn regardless","C83",file=F)
m("m137","{ p with fig := ⟨[], fun _ => none⟩ }","{ p with fig := ⟨[], p.fig.layout⟩ }","IPlotter.clear","layout kept","C83",file=F)
m("m138","data := p.fig.data ++ drawBh p.ergo a ++","data := drawBh p.ergo a ++","IPlotter.plot","earlier traces lost","C83",file=F)
m("m139","if aspect ∉ sAspects then","if aspect = \"\" then","SPlotter.plot","aspect not validated","C83",file=F)
m("m140","ax.name ≠ \"3d\" ∧ name = \"Geodesic.png\"","ax.name ≠ \"3d\"","SPlotter.save","user's file name overridden","C83",file=F)
m("m141","[Trace.mk .curve (g.kind ++ \" Geodesic\") (zip2 x y)]","[Trace.mk .curve (g.kind ++ \" Geodesic\") (zip2 y x)]","IPlotter.plot2D","axes swapped","C83",file=F)
m("m142","if shell = \"ZMQInteractiveShell\" then .interactive","if shell = \"ZMQInteractiveShell\" then .static","inIpynb","never interactive","C83",file=F)
F="Misc/Transf.lean"
m("m143","(m.arr.map recip, { m with inv := some (m.arr.map recip) })","(m.arr.map recip, m)","TransfMat.invert","cache not stored","C60",file=F)
m("m144","(exprs[j]?).map fun e => D s e","(exprs[i]?).map fun e => D s e","deriveByArray","transposed index","C60",file=F)
m("m145","if arr.rank ≠ 2 then","if arr.rank = 0 then","TransfMat.new","rank not checked","C60",file=F)
F="Predef/Model.lean"
m("m146","let val1 := 1 - sch / r\n","let val1 := 1 - 2 * sch / r\n","schwarzschild","factor 2","C61",file=F)
m("m147","-((r * F.sin theta) ^ 2) / c2])","-(r * F.sin theta ^ 2) / c2])","schwarzschild","square of r dropped","C61/C62",file=F)
m("m148","metric 0 3 (sch * r * a * (F.sin theta ^ 2) / (Sigma * c))","metric 0 3 (-(sch * r * a * (F.sin theta ^ 2) / (Sigma * c)))","kerr","sign of g_t phi","C61/C85",file=F)
m("m149","let Delta := r ^ 2 - sch * r + a ^ 2 + rQsq","let Delta := r ^ 2 - sch * r + a ^ 2 - rQsq","kerrNewman","sign of the charge term","C61",file=F)
m("m150","F.cos t ^ 2 * F.sinh ch ^ 2 * F.sin th ^ 2])","F.cos t ^ 2 * F.cosh ch ^ 2 * F.sin th ^ 2])","antiDeSitter","cosh for sinh","C64",file=F)
m("m151","F.var (coords.getD 1 \"\")","F.var (coords.getD 0 \"\")","deSitter","the intended coordinate (repairs the defect)","C64_refuted",file=F)
m("m152","(r ^ 2) * (F.pow alpha (-gam + 1)) * (F.sin th ^ 2)","(r ^ 2) * (F.pow alpha (gam + 1)) * (F.sin th ^ 2)","janisNewmanWinicour","sign of gamma","C65",file=F)
m("m153","let r_s := F.sqrt ((x - x_s) ^ 2 + y + z)","let r_s := F.sqrt ((x - x_s) ^ 2 + y ^ 2 + z ^ 2)","alcubierreWarp","repairs the defect","C87_refuted",file=F)
m("m154","((k * r * F.sin th) ^ 2) / (c ^ 2)","((r * F.sin th) ^ 2) / (c ^ 2)","barriolaVilekin","k forgotten","C91",file=F)
m("m155","F.exp (2 * F.sqrt lambd * c * t)","F.exp (F.sqrt lambd * c * t)","bertottiKasner","factor 2 dropped","C90",file=F)
m("m156","F.pow t (-2 / 3) / expr","F.pow t (2 / 3) / expr","davidson","sign of the exponent","C94",file=F)
m("m157","(((r * F.sin th) / lambd) ^ 2)","(((r * F.sin th) * lambd) ^ 2)","ernst","multiplied instead of divided","C93",file=F)
m("m158","diag [-1, 1, -(1 / 2) * F.exp","diag [-1, 1, (1 / 2) * F.exp","godel","sign of g_yy","C92",file=F)
m("m159","setSym metric 0 2 (-F.exp","setSym metric 0 1 (-F.exp","godel","wrong slot","C92",file=F)
m("m160","if idx = [i, j] ∨ idx = [j, i] then v","if idx = [i, j] then v","setSym","transposed entry not set","C86",file=F)
F="Predef/Find.lean"
m("m161","(\"Cosmo_Const\", cLambda)","(\"Lambda\", cLambda)","getConstant","undocumented name","C88",file=F)
