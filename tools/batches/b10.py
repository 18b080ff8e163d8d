MUTS=[]
def m(id,file,old,new,defn,edit,claim,nth=0,tightened=None):
    d=dict(id=id,file=file,old=old,new=new,defn=defn,edit=edit,claim=claim,nth=nth)
    if tightened: d["tightened"]=tightened
    MUTS.append(d)
m("m351","Misc/Plot.lean","def horizon3 (a : ℝ) : Trace :=\n  ⟨.surface, \"BH Event Horizon (Outer)\", mesh 50 fun th ph =>\n    ((do return (← rhOuter a) * Real.sin ph * Real.cos th)","def horizon3 (a : ℝ) : Trace :=\n  ⟨.surface, \"BH Event Horizon (Outer)\", mesh 50 fun th ph =>\n    ((do return (← rhOuter a) * Real.cos ph * Real.cos th)","horizon3","x uses cos phi","C59")
m("m352","Misc/Plot.lean","(do return (← reOuter a th) * Real.cos ph))⟩","(do return (← rhOuter a) * Real.cos ph))⟩","ergosphere3","horizon radius for z","C59")
m("m353","Misc/Plot.lean","def reOuter (a th : ℝ) : Py ℝ := do return 1 + (← Num.npSqrt (1 - (a * Real.cos th ^ 2)))","def reOuter (a th : ℝ) : Py ℝ := do return 1 + (← Num.npSqrt (1 - (a * Real.sin th ^ 2)))","reOuter","sin for cos","C59")
m("m354","Misc/Plot.lean","((do return (← reOuter a th) * Real.sin th), (do return (← reOuter a th) * Real.cos th), .ok 0)⟩","((do return (← reOuter a th) * Real.cos th), (do return (← reOuter a th) * Real.sin th), .ok 0)⟩","ergosphere2","axes exchanged","C59")
m("m355","Misc/Plot.lean","out = if plot_type = \"wireframe\" ∨ plot_type = \"surface\" then some (X, Y, Z.reshape X.shape) else none","out = if plot_type = \"surface\" then some (X, Y, Z.reshape X.shape) else none","HypersurfacePlot","wireframe draws nothing","C93")
m("m356","Misc/Plot.lean","out = if plot_type = \"wireframe\" ∨ plot_type = \"surface\" then some (X, Y, Z.reshape X.shape) else none","out = if plot_type = \"wireframe\" ∨ plot_type = \"surface\" then some (Y, X, Z.reshape X.shape) else none","HypersurfacePlot","axes exchanged","C93")
m("m357","Misc/Fractal.lean","else .ok (A.set i j (((s.it:ℝ) / (p.iter_max:ℝ)) ^ (0.2:ℝ)))","else .ok (A.set j i (((s.it:ℝ) / (p.iter_max:ℝ)) ^ (0.2:ℝ)))","Julia","indices exchanged","fractal")
m("m358","Misc/Fractal.lean","else .ok (A.set i j (((s.it:ℝ) / (p.iter_max:ℝ)) ^ (0.2:ℝ)))","else .ok (A.set i j (((s.it:ℝ) / (p.iter_max:ℝ)) ^ (2:ℝ)))","Julia","power 2","fractal")
m("m359","Misc/Embedding.lean","npDiv r (← Num.npSqrt (1 - (← npDiv (2 * e.M) r)))","npDiv r (← Num.npSqrt (1 - (← npDiv e.M r)))","Embedding.radialCoord","factor 2 dropped","embedding")
m("m360","Misc/Shadow.lean","r / (1 - (2 * ((if 0 ≤ M then ⌊M⌋ else ⌈M⌉ : ℤ) : ℂ) / r)) ^ (1 / 2 : ℂ) - i","r / (1 - (2 * ((⌊M⌋ : ℤ) : ℂ) / r)) ^ (1 / 2 : ℂ) - i","rootEquation","floor for truncation","shadow")
m("m361","Misc/Shadow.lean","r / (1 - (2 * ((if 0 ≤ M then ⌊M⌋ else ⌈M⌉ : ℤ) : ℂ) / r)) ^ (1 / 2 : ℂ) - i","r / (1 - (2 * ((if 0 ≤ M then ⌊M⌋ else ⌈M⌉ : ℤ) : ℂ) / r)) ^ (1 / 2 : ℂ) + i","rootEquation","sign of i","shadow")
m("m362","Predef/Find.lean","let search := strLower lc search\n  names","let search := search\n  names","find","search not lower-cased","C66")
m("m363","Predef/Find.lean","&& !strIsLower fname","","find","module names not removed","C66")
m("m364","Predef/Find.lean","\"Ernst\".toList, \"Godel\".toList","\"Godel\".toList","dirPredefined","Ernst missing","C66")
m("m365","Predef/Find.lean","⟨\"c\", \"Speed Of Light\"⟩","⟨\"G\", \"Speed Of Light\"⟩","cC","wrong symbol","constants")
m("m366","Vars/Model.lean","if t1.vars = [] then computeVariables it (o.arr.freeSymbols E) t1.syms else t1.vars⟩","t1.vars⟩","tensorProductV","variables never recomputed","variables")
m("m367","Predef/Model.lean","let o ← mkKind .metric (.arr a) (.seq coords) (.str ['l', 'l']) none (some name)","let o ← mkKind .metric (.arr a) (.seq coords) (.str ['u', 'u']) none (some name)","metricTensor","contravariant","predefined")
m("m368","Coord/Model.lean","return seven (← cartToSph p (← needVel v1 v2 v3))","return seven (← cartToSph p (← needVel v1 v3 v2))","cartToSphFast","velocities exchanged","C05..")
m("m369","Coord/Model.lean","return four (← cartToBlNovel p alpha)","return four (← cartToBlNovel p 0)","cartToBlFast","alpha dropped","C05..")
m("m370","Coord/Model.lean","  return four (← sphToCartNovel p)","  return four (← cartToSphNovel p)","sphToCartFast","wrong function","C05..")
m("m371","Coord/Objects.lean","  | .bl => \"BoyerLindquist\"","  | .bl => \"Spherical\"","Sys.name","wrong name","objects")
m("m372","Coord/Objects.lean","| none => if s = \"system\" then .ok (.name o.sys.name) else .error .keyError","| none => .error .keyError","CoordObj.lookup","system missing","objects")
m("m373","Coord/Objects.lean","    let s ← tupleIndex o.sys.names i\n    o.lookup s","    let s ← tupleIndex o.sys.names (i - 1)\n    o.lookup s","CoordObj.getItem","one based","objects")
m("m374","Dual/Model.lean","⟨x.val - y.val, x.deriv - y.deriv⟩","⟨x.val - y.val, x.deriv + y.deriv⟩","sub","sign of the derivative","duals")
m("m375","Dual/Model.lean","return derivOf (← e.eval fun _ => ⟨x, 1⟩)","return derivOf (← e.eval fun _ => ⟨x, x⟩)","derivPy","wrong seed","duals")
m("m376","Num/Model.lean","(i, j) ∈ [(3, 0), (0, 3), (0, 0), (1, 1), (2, 2), (3, 3)]","(i, j) ∈ [(0, 3), (0, 0), (1, 1), (2, 2), (3, 3)]","ncContra","cell (3,0) forgotten","C43")
m("m377","Tensor/Model.lean","  | some s => some (s ++ context)","  | some s => some s","changeName","context not appended","names")
m("m378","Tensor/Model.lean","| .seq s => .ok { t with kind := .base, syms := s, parent := parent }","| .seq s => .ok { t with kind := .base, syms := s, parent := none }","mkBase","parent metric lost","tensor")
m("m379","Tensor/Model.lean","mkBase (.arr (t1.arr.tensorproduct t2.arr)) (.seq t1.syms) (.str (t1.config ++ t2.config))","mkBase (.arr (t2.arr.tensorproduct t1.arr)) (.seq t1.syms) (.str (t1.config ++ t2.config))","tensorProduct","factors exchanged","tensor product")
m("m380","Tensor/Model.lean","mkBase (.arr (t1.arr.tensorproduct t2.arr)) (.seq t1.syms) (.str (t1.config ++ t2.config))","mkBase (.arr (t1.arr.tensorproduct t2.arr)) (.seq t1.syms) (.str (t2.config ++ t1.config))","tensorProduct","configs exchanged","tensor product")
m("m381","Arrays/Model.lean","  | [] => .error .indexError\n  | _ => .ok (nestOf a.shape a.flat)","  | _ => .ok (nestOf a.shape a.flat)","Dense.tolist","no error for scalars","C..arrays")
m("m382","Curv/Model.lean","  let cg ← ricciFromRiemann riem parent\n  scalarFromRicci cg none","  let cg ← ricciFromRiemann riem none\n  scalarFromRicci cg none","scalarFromRiemann","parent dropped","C..curv")
m("m383","Curv/Model.lean","  let rt ← riemannFromChristoffels D chris parent\n  scalarFromRiemann rt none","  let rt ← riemannFromChristoffels D chris none\n  scalarFromRiemann rt none","scalarFromChristoffels","parent dropped","C..curv")
m("m384","Curv/Model.lean","  let lo ← m.lowerConfig\n  let matinv ← lo.arr.inv\n  mkKind .christoffel","  let lo ← m.lowerConfig\n  let matinv ← m.arr.inv\n  mkKind .christoffel","christoffelFromMetric","inverse of the array as given","C..curv")
