MUTS=[]
def m(id,old,new,defn,edit,claim,nth=0,file=None,tightened=None):
    d=dict(id=id,file=file,old=old,new=new,defn=defn,edit=edit,claim=claim,nth=nth)
    if tightened: d["tightened"]=tightened
    MUTS.append(d)
P="Misc/Plot.lean"
m("m276","(linspace 0 (2 * Real.pi) N).map fun th => f th ph","(linspace 0 Real.pi N).map fun th => f th ph","mesh","half a turn of azimuth","C59",file=P)
m("m277","(linspace 0 Real.pi N).flatMap fun ph","(linspace 0 (Real.pi / 2) N).flatMap fun ph","mesh","only the upper half","C59",file=P)
m("m278","⟨.filled, \"BH Event Horizon (Outer)\", (linspace 0 (2 * Real.pi) 50)","⟨.filled, \"BH Event Horizon (Outer)\", (linspace 0 Real.pi 50)","horizon2","half circle","C59",file=P)
m("m279","horizon2 a :: if ergo then [ergosphere2 a] else []","if ergo then [ergosphere2 a] else [horizon2 a]","drawBh2","horizon replaced by the ergosphere","C59/C60",file=P)
m("m280","| some x, .ok l => .ok (x :: l)\n    | none","| some x, .ok l => .ok (l ++ [x])\n    | none","column","column reversed","C60",file=P)
m("m281","| a :: _ => .ok a\n  | [] => .error .indexError","| a :: _ => .ok (-a)\n  | [] => .error .indexError","spin","wrong sign","C60",file=P)
m("m282","(x.zip (y.zip z)).map fun p => (.ok p.1, .ok p.2.1, .ok p.2.2)","(x.zip (y.zip z)).map fun p => (.ok p.2.1, .ok p.1, .ok p.2.2)","zip3","x and y exchanged","C60",file=P)
m("m283","(x.zip y).map fun p => (.ok p.1, .ok p.2, .ok 0)","(x.zip y).map fun p => (.ok p.2, .ok p.1, .ok 0)","zip2","axes exchanged","C60",file=P)
m("m284",'["auto", "data", "manual", "cube"]','["auto", "data", "manual", "cube", "equal"]',"iAspects","matplotlib aspect accepted","C60",file=P)
m("m285",'["auto", "equal", "equalxy", "equalyz", "equalxz"]','["auto", "equal", "equalxy", "equalyz"]',"sAspects","equalxz missing","C60",file=P)
m("m286","Trace.mk .curve (\"X2 (\" ++ g.coords ++ \")\") (zip2 l y)","Trace.mk .curve (\"X2 (\" ++ g.coords ++ \")\") (zip2 l x)","IPlotter.parametricPlot","second curve shows the first coordinate","C60",file=P)
m("m287","if k = key then some value else f.layout k","if k = key then some value else none","Figure.setLayout","other keys forgotten","C60",file=P)
S="Misc/Shadow.lean"
m("m288","a + (i:ℕ) * ((b - a) / ((n:ℝ) - 1))","a + (i:ℕ) * ((b - a) / (n:ℝ))","linspace","end point not reached","C76",file=S)
m("m289","(1 - (← npDiv (b ^ 2 * GTT) (r ^ 2)))","(1 + (← npDiv (b ^ 2 * GTT) (r ^ 2)))","krktExt","sign","C76/C77",file=S)
m("m290","(← npDiv 1 GTT) - K * (← npDiv GRR GTT)","(← npDiv 1 GTT) + K * (← npDiv GRR GTT)","intensityBlue","redshift in place of blueshift","C77",file=S)
m("m291","  return (b - a) / 2 * s","  return (b - a) * s","fixedQuad","factor 1/2 lost","C77",file=S)
m("m292","(fun r => intensityRed M r p.1) p.2 fov","(fun r => intensityRed M r p.1) fov p.2","intensityAbove","limits reversed","C77",file=S)
m("m293","(.ok 0)\n","(.ok 1)\n","pySum","sum starts at one","C77",file=S)
C="Misc/Cosmo.lean"
m("m294","def cosmoConst : ℝ := 2.036e-35","def cosmoConst : ℝ := 2.036e-52","cosmoConst","other unit","C53",file=C)
m("m295","  if x < 0 then .error .notANumber\n  else if","  if","npPow","negative base accepted","C53",file=C)
T="Misc/Transf.lean"
m("m296","((deriveByArray D new2old newCoords).map recip) oldCoords newCoords none (some new2old)","(deriveByArray D new2old newCoords) oldCoords newCoords none (some new2old)","TransfMat.fromNew2old","reciprocals not taken","C81",file=T)
m("m297","  .error .notImplementedError","  .error .valueError","TransfMat.fromOld2new","other exception","C81",file=T)
Fr="Misc/Fractal.lean"
m("m298","0.80 * Complex.exp (Complex.I * (angle:ℂ))","0.80 * Complex.exp (-Complex.I * (angle:ℂ))","fractalParams","conjugate parameter","C82",file=Fr)
m("m299","(List.range n).map (sliderStep n)","(List.range (n - 1)).map (sliderStep n)","sliderSteps","last step missing","C82",file=Fr)
E="Misc/Embedding.lean"
m("m300","(fun s => s.r < 20 * e.M)","(fun s => s.r < 9 * e.M)","Embedding.GetValuesSurface","stops at 9M","C79",file=E)
m("m301","2 * Real.pi * (i:ℕ) / ((N:ℝ) - 1)","2 * Real.pi * (i:ℕ) / (N:ℝ)","phiValues","circle not closed","C79",file=E)
A="Misc/Anim.lean"
m("m302","  | x :: xs => .ok (xs.foldl max x)","  | x :: xs => .ok (xs.foldl max 0)","pyMax","initial value 0","C103",file=A)
m("m303","  | x :: xs => .ok (xs.foldl min x)","  | x :: xs => .ok (xs.foldl min 0)","pyMin","initial value 0","C103",file=A)
Pm="Predef/Model.lean"
m("m304","let Arn := 1 - sch / r + rQsq / r ^ 2","let Arn := 1 - sch / r - rQsq / r ^ 2","reissnerNordstorm","sign of the charge term","C63",file=Pm)
m("m305","diag [-1, 1 / (c ^ 2), 1 / (c ^ 2), 1 / (c ^ 2)]","diag [-1, 1 / (c ^ 2), 1 / (c ^ 2), 1 / c]","minkowskiCartesian","c instead of c^2","C64",file=Pm)
m("m306","(r ^ 2 * F.sin th ^ 2) / c2]) [\"t\", \"r\", \"theta\", \"phi\"]\n    \"MinkowskiMetricPolar\"","(r ^ 2 * F.sin th) / c2]) [\"t\", \"r\", \"theta\", \"phi\"]\n    \"MinkowskiMetricPolar\"","minkowskiPolar","square lost","C64",file=Pm)
m("m307","diag [-F.cosh r ^ 2, 1, F.sinh r ^ 2","diag [-F.sinh r ^ 2, 1, F.sinh r ^ 2","antiDeSitterStatic","sinh for cosh","C118/C64",file=Pm)
Fi="Predef/Find.lean"
m("m308","s.any (fun c => c.isAlpha) && s.all (fun c => !c.isUpper)","s.all (fun c => !c.isUpper)","strIsLower","strings without letters are lower case","C55",file=Fi)
m("m309","a.isPrefixOf (c :: b) || strIn a b","a.isPrefixOf (c :: b)","strIn","prefix instead of substring","C55",file=Fi)
Me="Metric/Model.lean"
m("m310","some o => if o.val.config = ['l', 'l'] then (.ok a, H) else heapInv H a","some _ => (.ok a, H)","heapLower","contravariant metric returned","C10/C11",file=Me)
m("m311","(.ok H.length, H ++ [⟨v, none⟩])","(.ok H.length, H ++ [⟨v, some H.length⟩])","heapNew","cache initialised with the object itself","C11",file=Me)
V="Vars/Model.lean"
m("m312","if vars = [] then computeVariables it (o.arr.freeSymbols E) syms else vars⟩","computeVariables it (o.arr.freeSymbols E) syms⟩","mkBaseV","passed variables ignored","C12",file=V)
m("m313","  else if args.length ≠ vals.length then .error .typeError\n","","lambdifyCall","arity not checked","C13",file=V)
m("m314","vals.getD (args.idxOf s) default","vals.getD (args.idxOf s + 1) default","lambdifyCall","off by one argument","C13",file=V)
D="Dual/Model.lean"
m("m315","def addNum (x : Dual) (c : ℝ) : Dual := ⟨x.val + c, x.deriv⟩","def addNum (x : Dual) (c : ℝ) : Dual := ⟨x.val + c, x.deriv + c⟩","Dual.addNum","constant added to the derivative","C28",file=D)
m("m316","⟨-x.val, -x.deriv⟩","⟨-x.val, x.deriv⟩","Dual.neg","derivative not negated","C28",file=D)
m("m317","truediv ⟨c, 0⟩ x","truediv x ⟨c, 0⟩","Dual.rtruedivNum","operands exchanged","C28",file=D)
m("m318","⟨Real.sin x.val, x.deriv * Real.cos x.val⟩","⟨Real.sin x.val, Real.cos x.val⟩","Dual.sin","chain rule dropped","C28",file=D)
m("m319","g (Fin.ofNat 4 (k / 4)) (Fin.ofNat 4 (k % 4))","g (Fin.ofNat 4 (k % 4)) (Fin.ofNat 4 (k / 4))","metricEntries","transposed","C28",file=D)
Ar="Arrays/Model.lean"
m("m320","(flattenList l).map f) a.shape","flattenList l) a.shape","simplifySympyArray","f not applied","C21",file=Ar)
m("m321","((fl.drop (e * s.prod)).take s.prod)","((fl.drop (e * n)).take s.prod)","nestOf","wrong stride","C21",file=Ar)
R="Integ/RKPy.lean"
m("m322","(s.y + (h / 2) • k1)\n    let k3","(s.y + (h / 2) • k0)\n    let k3","RK4Py.step","k0 used twice","C114",file=R)
I="Integ/Model.lean"
m("m323","jacobianG g q ((wrt : Nat) : Int)\n  return dot4 (matVec J p) p","jacobianG g q ((wrt : Nat) : Int)\n  return dot4 (matVec J p) q","partHamFlow","q instead of p","C26",file=I)
m("m324","let dp2 ← seq4 fun i => do return 0.5 * (← partHamFlow g q2 p1 i)","let dp2 ← seq4 fun i => do return 0.5 * (← partHamFlow g q1 p1 i)","flowB","derivative taken at q1","C26",file=I)
m("m325","let s2 ← ord4 c s1 (δ * Z.1)","let s2 ← ord4 c s1 (δ * Z.2)","ord6","middle weight wrong","C30/C31",file=I)
Co="Coord/Model.lean"
m("m326","let x := p.a * Real.cos p.c * Real.sin p.b","let x := p.a * Real.sin p.c * Real.sin p.b","sphToCartNovel","sin for cos","C36",file=Co)
m("m327","  | some v => Conv.new o.1 (some v.a) (some v.b) (some v.c)","  | some v => Conv.new o.1 (some v.a) (some v.c) (some v.b)","Conv.ofTuple","velocities exchanged","C38",file=Co)
m("m328","    return (s.pos, some v)\n  else","    return (s.pos, none)\n  else","Conv.values","velocities dropped","C39",file=Co)
m("m329","  let alpha ← Num.alpha k M a\n  blToCartFast","  let alpha ← Num.alpha k a M\n  blToCartFast","BoyerLindquist.convertCartesian","mass and spin exchanged","C37",file=Co)
Ob="Coord/Objects.lean"
m("m330","  | .cart => (.speed, .speed, .speed)\n  | _ => (.speed, .angularSpeed, .angularSpeed)","  | _ => (.speed, .speed, .speed)","Sys.velDim","angular speeds not required","C99",file=Ob)
m("m331","  | .cart => (.length, .length, .length)\n  | _ => (.length, .angle, .angle)","  | _ => (.length, .length, .length)","Sys.posDim","angles not required","C99",file=Ob)
m("m332","  | _ => [\"t\", \"r\", \"theta\", \"phi\"]","  | _ => [\"t\", \"r\", \"phi\", \"theta\"]","Sys.names","angles exchanged","C98",file=Ob)
m("m333","if q.dim = d then .ok q else .error .valueError","if q.dim = d then .ok q else .error .typeError","checkDim","other exception","C99",file=Ob)
m("m334","  | 2 => { o with b := q }\n  | 3 => { o with c := q }","  | 2 => { o with c := q }\n  | 3 => { o with b := q }","CoordObj.assign","attributes exchanged","C98",file=Ob)
B="Coord/Body.lean"
m("m335","Body := { b with coords := c }","Body := { b with coords := c, posVec := c.vecs.map Prod.fst, velVec := c.vecs.map Prod.snd }","Body.setCoords","vectors refreshed (the refutation must notice)","C100",file=B)
Tm="Tensor/Model.lean"
m("m336","idx.getD (perm.idxOf m) 0","idx.getD (perm.getD m 0) 0","permutedims","inverse permutation","C01",file=Tm)
m("m337","shape := (a.shape.eraseIdx q).eraseIdx p\n            get := fun idx => ∑ k ∈ Finset.range m","shape := (a.shape.eraseIdx q).eraseIdx p\n            get := fun idx => ∑ k ∈ Finset.range (m - 1)","tensorcontraction","last term missing","C01/C05",file=Tm)
m("m338","(.str ['l', 'l']) none\n","(.str t.config) t.name\n","Obj.subs","configuration and name kept (the refutation must notice)","C86",file=Tm)
m("m339","  | .base | .ricciScalar => return b","  | .base => return b","Obj.lorentzTransform","RicciScalar re-wrapped","C06",file=Tm)
m("m340","(.str t.config) none (changeName t.name \"__lt\")\n  match","(.str t.config) t.parent (changeName t.name \"__lt\")\n  match","Obj.lorentzTransform","parent metric kept","C06",file=Tm)
Cm="Curv/Model.lean"
m("m341","(parent <|> chris.parent)\n    (some \"RiemannCurvatureTensor\")","none\n    (some \"RiemannCurvatureTensor\")","riemannFromChristoffels","parent metric lost","C15/C18",file=Cm)
m("m342","let ric ← toConfig ric ['u', 'l'] parent","let ric ← toConfig ric ['l', 'l'] parent","scalarFromRicci","not raised before the trace","C17",file=Cm)
m("m343","let rt ← riemannFromChristoffels D chris parent\n  ricciFromRiemann rt none","let rt ← riemannFromChristoffels D chris none\n  ricciFromRiemann rt none","ricciFromChristoffels","parent argument ignored","C16/C18",file=Cm)
m("m344","if t.config = c then .ok t else t.changeConfig c metric","t.changeConfig c metric","toConfig","always converted (same value, name suffix and parent check)","C18",file=Cm)
