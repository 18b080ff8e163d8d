MUTS=[]
def m(id,old,new,defn,edit,claim,nth=0,file=None,tightened=None):
    d=dict(id=id,file=file,old=old,new=new,defn=defn,edit=edit,claim=claim,nth=nth)
    if tightened: d["tightened"]=tightened
    MUTS.append(d)
F="Integ/Model.lean"
m("m204","let k1 := s.func (s.t + h / 2) (s.y + (h / 2) • k0)","let k1 := s.func (s.t + h / 2) (s.y + h • k0)","RK4.step","second stage uses a full step in y","C108",file=F,tightened=["C108_rk4_fourth_order (new)"])
m("m205","let k2 := s.func (s.t + h / 2) (s.y + (h / 2) • k1)","let k2 := s.func (s.t + h / 2) (s.y + (h / 2) • k0)","RK4.step","third stage reuses k0","C108",file=F)
m("m206","let k3 := s.func (s.t + h) (s.y + h • k2)","let k3 := s.func (s.t + h / 2) (s.y + h • k2)","RK4.step","fourth stage at half time (invisible for autonomous systems)","C108",file=F)
m("m207","(k0 + (2 : ℝ) • k1 + (2 : ℝ) • k2 + k3)","(k0 + (2 : ℝ) • k1 + k2 + (2 : ℝ) • k3)","RK4.step","weights exchanged","C108",file=F)
m("m208","t := s.t + h }","t := s.t + h / 2 }","RK4.step","time advances half a step","C35",file=F)
m("m209","else if c.order = 6 then ord6 c s δ","else if c.order = 6 then ord4 c s δ","orderStep","order 6 dispatches to ord4","C105",file=F)
m("m210","  let s1 ← ord6 c s (δ * Z.2)\n  let s2 ← ord6 c s1 (δ * Z.1)\n  ord6 c s2 (δ * Z.2)","  let s1 ← ord6 c s (δ * Z.2)\n  let s2 ← ord6 c s1 (δ * Z.1)\n  ord6 c s2 (δ * Z.1)","ord8","last sub-step has the wrong weight","C33/C105",file=F)
m("m211","⟨cfg, delta, timeLike, rtol, atol, suppressWarnings, 0, (q0, p0, q0, p0), [], []⟩","⟨cfg, delta, timeLike, atol, rtol, suppressWarnings, 0, (q0, p0, q0, p0), [], []⟩","Integ.new","tolerances exchanged","C67/C109",file=F)
m("m212","⟨cfg, delta, timeLike, rtol, atol, suppressWarnings, 0, (q0, p0, q0, p0), [], []⟩","⟨cfg, delta, timeLike, rtol, atol, suppressWarnings, 0, (q0, p0, q0, p0), [(q0, p0, q0, p0)], []⟩","Integ.new","initial state recorded as a result","C34",file=F)
m("m213","if cfg.order ≠ 2 ∧ cfg.order ≠ 4 ∧ cfg.order ≠ 6 ∧ cfg.order ≠ 8 then","if cfg.order ≠ 2 ∧ cfg.order ≠ 4 ∧ cfg.order ≠ 6 then","Integ.new","order 8 refused","C34/C105",file=F)
m("m214","|a - b| ≤ atol + rtol * |b|","|a - b| ≤ atol + rtol * |a|","allclose","relative to the wrong argument","C67",file=F)
m("m215","| N + 1, I => do (← I.step).runN N","| N + 1, I => do if N = 0 then .ok I else (← I.step).runN N","Integ.runN","last step skipped","C34",file=F)
G="Geodesic/Model.lean"
m("m216",".sub (.const 1) (.div (.const 2) r)",".sub (.const 1) (.div (.const 1) r)","schFn","M instead of 2M","C38/C107",file=G)
m("m217","| 3, 3 => .div (.const 1) (.pow (.mul r (.sin th)) 2)","| 3, 3 => .div (.const 1) (.mul r (.pow (.sin th) 2))","schFn","r instead of r^2","C38/C107",file=G)
m("m218",".add (.pow r 2) (.pow (.mul (.const a) (.cos th)) 2)",".add (.pow r 2) (.pow (.mul (.const a) (.sin th)) 2)","sigmaE","sin for cos","C38/C107",file=G)
m("m219","(.pow (.const a) 2)) (.pow (.const Q) 2)","(.pow (.const a) 2)) (.neg (.pow (.const Q) 2))","deltaE","charge with the wrong sign","C38/C107",file=G)
m("m220","| a :: Q :: _ => .ok (kerrNewmanFn a Q)","| a :: Q :: _ => .ok (kerrNewmanFn Q a)","builtinMetric","spin and charge exchanged","C107",file=G)
m("m221","| 0, 3 | 3, 0 => .neg (.div (.mul (.mul (.mul (.const 4) (.const a)) (.add (.sub a2 dl) r2)) sg) denom)","| 0, 3 | 3, 0 => .div (.mul (.mul (.mul (.const 4) (.const a)) (.add (.sub a2 dl) r2)) sg) denom","kerrNewmanFn","sign of the cross term","C38/C107",file=G)
m("m222","[s.q1 0, s.q1 1, s.q1 2, s.q1 3, s.p1 0, s.p1 1, s.p1 2, s.p1 3]","[s.q2 0, s.q1 1, s.q1 2, s.q1 3, s.p1 0, s.p1 1, s.p1 2, s.p1 3]","polarRow","time of the second copy","C34/C105",file=G)
m("m224","(-B + Real.sqrt (B ^ 2 - 4 * A * C))","(-B - Real.sqrt (B ^ 2 - 4 * A * C))","fourMomentum","past-directed root","C37/C107",file=G)
m("m225","let B := 2 * guu 0 3 * p 2","let B := guu 0 3 * p 2","fourMomentum","cross term counted once","C37/C107",file=G)
D="Dual/Model.lean"

m("m226","def add (x y : Dual) : Dual := ⟨x.val + y.val, x.deriv + y.deriv⟩","def add (x y : Dual) : Dual := ⟨x.val + y.val, x.deriv⟩","Dual.add","derivative of the second summand dropped","C25/C26",file=D)
m("m227","def subNum (x : Dual) (c : ℝ) : Dual := ⟨x.val - c, x.deriv⟩","def subNum (x : Dual) (c : ℝ) : Dual := ⟨x.val - c, -x.deriv⟩","Dual.subNum","sign","C25/C26",file=D)
m("m228","def mulNum (x : Dual) (c : ℝ) : Dual := ⟨x.val * c, x.deriv * c⟩","def mulNum (x : Dual) (c : ℝ) : Dual := ⟨x.val * c, x.deriv⟩","Dual.mulNum","factor dropped","C25/C26",file=D)
m("m229","⟨Real.exp x.val, x.deriv * Real.exp x.val⟩","⟨Real.exp x.val, x.val * Real.exp x.val⟩","Dual.exp","val for deriv","C25/C26",file=D)
m("m230",".ok ⟨Real.log x.val, x.deriv / x.val⟩",".ok ⟨Real.log x.val, x.val / x.deriv⟩","Dual.log","quotient inverted","C25/C26",file=D)
m("m231","truediv x.sin x.cos","truediv x.cos x.sin","Dual.tan","cotangent","C25/C26",file=D)
m("m232","let w ← pyPow x.val (p - 1)","let w ← pyPow x.val (p + 1)","Dual.pow","wrong exponent","C25/C26",file=D)
m("m233","  | .num _ => 0\n","  | .num c => c\n","derivOf","derivative of a constant is the constant","C26/C28",file=D)
m("m234","⟨coords i, if ((i : Nat) : Int) = wrt then 1 else 0⟩","⟨coords i, 1⟩","diffG","all coordinates seeded","C28",file=D)
m("m235","    if i ≤ j then do","    if i < j then do","jacobianLoop","diagonal skipped","C28",file=D)
m("m236","⟨x.val / c, x.deriv / c⟩","⟨x.val / c, x.deriv / c ^ 2⟩","Dual.truedivNum","quotient rule misapplied","C25/C26",file=D)
