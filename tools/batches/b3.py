F="Coord/Model.lean"
O="Coord/Objects.lean"
MUTS=[]
def m(id,old,new,defn,edit,claim,nth=0,file=F): MUTS.append(dict(id=id,file=file,old=old,new=new,defn=defn,edit=edit,claim=claim,nth=nth))
m("m081","let phi := npArctan2 p.b p.a\n  .ok","let phi := npArctan2 p.a p.b\n  .ok","cartToSphNovel","arctan2 arguments swapped","C51 round trip")
m("m082","let theta := npArctan2 hxy p.c\n  let phi := npArctan2 p.b p.a\n  let n1","let theta := npArctan2 p.c hxy\n  let phi := npArctan2 p.b p.a\n  let n1","cartToSph","theta from the equator","C51, C53")
m("m083","npDiv (p.c * (p.a * v.a + p.b * v.b) - n1 * v.c)","npDiv (n1 * v.c - p.c * (p.a * v.a + p.b * v.b))","cartToSph","sign of v_theta","C53")
m("m084","npDiv (-1 * (v.a * p.b - p.a * v.b)) n1","npDiv (v.a * p.b - p.a * v.b) n1","cartToSph","sign of v_phi","C53")
m("m085","let w := (p.a ^ 2 + p.b ^ 2 + p.c ^ 2) - alpha ^ 2\n","let w := (p.a ^ 2 + p.b ^ 2 + p.c ^ 2) - alpha\n","cartToBlNovel","square of alpha dropped","C52")
m("m086","w ^ 2 + 4 * alpha ^ 2 * p.c ^ 2))))\n  let theta ← npArccos (← npDiv p.c r)\n  let phi := npArctan2 p.b p.a\n  return","w ^ 2 + alpha ^ 2 * p.c ^ 2))))\n  let theta ← npArccos (← npDiv p.c r)\n  let phi := npArctan2 p.b p.a\n  return","cartToBlNovel","factor 4 dropped","C52")
m("m087","let dw_dt := 2 * (p.a * v.a + p.b * v.b + p.c * v.c)","let dw_dt := (p.a * v.a + p.b * v.b + p.c * v.c)","cartToBl","factor 2 dropped in dw/dt","C53")
m("m088","(dw_dt / 2 +","(dw_dt +","cartToBl","the factor the code wrongly halves (repairs the defect)","C53_refuted_bl / C52_refuted_velocity")
m("m089","let v_z := Real.cos th * v.a - r * Real.sin th * v.b","let v_z := Real.cos th * v.a + r * Real.sin th * v.b","sphToCart","sign of v_z","C53")
m("m090","- r * Real.sin th * Real.sin ph * v.c + r * Real.cos th * Real.cos ph * v.b","- r * Real.sin th * Real.sin ph * v.b + r * Real.cos th * Real.cos ph * v.c","sphToCart","angular velocities swapped","C53")
m("m091","let xa ← Num.npSqrt (p.a ^ 2 + alpha ^ 2)","let xa ← Num.npSqrt (p.a ^ 2 - alpha ^ 2)","blToCartNovel","sign of alpha^2","C52")
m("m092","let v_z := v.a * Real.cos th - r * Real.sin th * v.b","let v_z := v.a * Real.cos th - xa * Real.sin th * v.b","blToCart","xa for r","C53")
m("m093","npDiv 1 (← Num.npSqrt (1 - v_norm2 / k.c ^ 2))","npDiv 1 (← Num.npSqrt (1 + v_norm2 / k.c ^ 2))","lorentzFactor","sign","C54")
m("m094","npDiv 1 (← Num.npSqrt (1 - v_norm2 / k.c ^ 2))","npDiv 1 (← Num.npSqrt (1 - v_norm2))","lorentzFactor","c forgotten","C54")
m("m095","!(v1.isNone || v2.isNone || v3.isNone)","!(v1.isNone && v2.isNone && v3.isNone)","Conv.new","and for or","C74")
m("m096","  | _, _ => .error .keyError","  | some M, none => .ok (M, 0)\n  | _, _ => .error .keyError","Kwargs.get","missing spin silently zero","C74")
m("m097","let cart := Conv.ofTuple transformed\n  Cartesian.convertBl k cart ⟨some M, some a⟩","let cart := Conv.ofTuple transformed\n  Cartesian.convertBl k cart ⟨some a, some M⟩","Spherical.convertBl","mass and spin swapped","C74")
m("m098","let cart := Conv.ofTuple transformed\n  Cartesian.convertSpherical cart","let cart := Conv.ofTuple (transformed.1, none)\n  Cartesian.convertSpherical cart","BoyerLindquist.convertSpherical","velocities dropped","C74")
m("m099","![k.c * o.t.si, o.a.si, o.b.si, o.c.si]","![o.t.si, o.a.si, o.b.si, o.c.si]","CoordObj.position","c forgotten in x0","C75",file=O)
m("m100","![k.c * o.t.si, o.a.si, o.b.si, o.c.si]","![o.t.si, o.a.si, o.b.si, o.c.si]","DiffObj.position","c forgotten in x0","C75/C76",file=O,nth=1)
m("m101","let j := if i < 0 then i + l.length else i","let j := i","tupleIndex","negative indices refused","C75",file=O)
m("m102","let b ← checkDim b sys.posDim.2.1\n  let c ← checkDim c sys.posDim.2.2\n  return","let c ← checkDim c sys.posDim.2.2\n  return","CoordObj.new","one argument not checked","C75",file=O)
m("m103","(.ok x, { o with vt := some (.ok x) })","(.ok x, o)","DiffObj.setVt","the computed v_t is not stored","C76",file=O)
m("m104","if o.sys.name ≠ m.system then (.error .coordinateError, o)\n  else","if m.system = \"\" then (.error .coordinateError, o)\n  else","DiffObj.setVt","coordinate check dropped","C76",file=O)
m("m105","(.ok ![x, o'.v1.si, o'.v2.si, o'.v3.si], o')","(.ok ![x, o'.v1.value, o'.v2.value, o'.v3.value], o')","DiffObj.velocity","raw value instead of SI","C76",file=O)
m("m106","(.ofSI v.a tgt.velDim.1) (.ofSI v.b tgt.velDim.2.1) (.ofSI v.c tgt.velDim.2.2)","(.ofSI v.a tgt.velDim.1) (.ofSI v.c tgt.velDim.2.1) (.ofSI v.b tgt.velDim.2.2)","DiffObj.to","velocities swapped","C75",file=O)
m("m107","| .sph, .bl => do let (M, a) ← kw.get; Spherical.convertBl k s","| .sph, .bl => do let (M, a) ← kw.get; Cartesian.convertBl k s","convertTo","wrong base class","C75",file=O)
m("m108","⟨t.si, a.si, b.si, c.si⟩ none none none, [t, a, b, c]⟩","⟨t.si, a.si, b.si, c.si⟩ none none none, [t, b, a, c]⟩","CoordObj.new","dictionary entries swapped","C75",file=O)
