MUTS=[]
def m(id,old,new,defn,edit,claim,nth=0,file=None,tightened=None):
    d=dict(id=id,file=file,old=old,new=new,defn=defn,edit=edit,claim=claim,nth=nth)
    if tightened: d["tightened"]=tightened
    MUTS.append(d)
F="Misc/Anim.lean"
m("m170","(x_min - margin, x_max + margin)","(x_min + margin, x_max - margin)","axisLimits","margin inwards: extreme points outside the axes","C97",file=F)
m("m171","let zl ← axisLimits z","let zl ← axisLimits y","SPlotter.animate","z limits from y","C97",file=F)
m("m172",".take num⟩",".take (num + 1)⟩","SPlotter.animate","frame n shows n+1 points","C97",file=F)
m("m173","let N := x.length","let N := x.length - 1","SPlotter.animate","one frame too few","C97",file=F)
m("m174","let z ← column g 3","let z ← column g 4","SPlotter.animate","wrong column","C97",file=F)
F="Integ/RK45.lean"
m("m175","8 * stepsize, r, a, !isFloat","8 / stepsize, r, a, !isFloat","baseArgs","max_step inverted","C99",file=F)
m("m176","| none => 0.2 * stepsize","| none => 0.2","baseArgs","relative tolerance not scaled","C99",file=F)
m("m177","| none => r / 0.8e3","| none => stepsize / 0.8e3","baseArgs","absolute tolerance from the step size","C99",file=F)
m("m178","| (.error .runtime, s') => ⟨.ok (), 1, s'⟩","| (.error .runtime, s') => ⟨.ok (), 0, s'⟩","RK45.step","no warning","C99",file=F)
m("m179","| (.error (.other e), s') => ⟨.error e, 0, s'⟩","| (.error (.other e), s') => ⟨.ok (), 1, s'⟩","RK45.step","every exception swallowed","C99",file=F)
m("m180","tBound, 0.8 * stepsize","tBound, stepsize","baseArgs","first step not reduced","C99",file=F)
F="Coord/Body.lean"
m("m181","| .sph => some ([o.a, o.b, o.c], [o.v1, o.v2, o.v3])","| .sph => some ([o.a, o.c, o.b], [o.v1, o.v2, o.v3])","BodyCoords.vecs","theta and phi swapped","C100",file=F)
m("m182","| .bl => some ([o.a, o.b, o.c], [o.v1, o.v2, o.v3])","| .bl => Option.none","BodyCoords.vecs","BoyerLindquist forgotten","C100",file=F)
m("m183","  else if q.dim ≠ .charge then .error .valueError\n","","Body.new","charge not checked","C100",file=F)
m("m184","coords, parent, coords.vecs.map Prod.fst","coords, .none, coords.vecs.map Prod.fst","Body.new","parent dropped","C100",file=F)
m("m185","coords.vecs.map Prod.fst, coords.vecs.map Prod.snd","coords.vecs.map Prod.snd, coords.vecs.map Prod.fst","Body.new","position and velocity swapped","C100",file=F)
F="Predef/Model.lean"
m("m186","f / (x + y) ^ 2])","f / (x - y) ^ 2])","cMetric","sign in one component","C101",file=F)
m("m187","1 / ((x + y) ^ 2 * h), f","1 / ((x + y) ^ 2 * f), f","cMetric","f for h","C101",file=F)
m("m188","F.exp (-2 * U) * (rho ^ 2)","F.exp (-2 * U) * rho","besselGravitationalWave","square forgotten","C102",file=F)
m("m189","- (2 * F.besselj rho 0 * F.besselj rho 1 * (F.cos t ^ 2))","- (F.besselj rho 0 * F.besselj rho 1 * (F.cos t ^ 2))","besselGravitationalWave","factor 2 dropped","C102",file=F)
m("m190","(r ^ 2) * (F.pow alpha (-gam + 1)),","(r ^ 2) * (F.pow alpha (-gam)),","janisNewmanWinicour","exponent of the angular part","C103",file=F)
m("m191","let Delta := r ^ 2 - sch * r + a ^ 2\n","let Delta := r ^ 2 - sch * r - a ^ 2\n","kerr","sign of a^2 in Delta","C95",file=F)
m("m192","(sch * r * a * (F.sin theta ^ 2) / (Sigma * c))","(sch * r * a * (F.sin theta ^ 2) / Sigma)","kerr","c forgotten in the cross term","C95",file=F)
m("m193","1 + ((rQsq - sch * r) / Sigma)","1 - ((rQsq + sch * r) / Sigma)","kerrNewman","sign of the charge term","C96",file=F)
m("m194","(sch * r - rQsq) * a","(sch * r) * a","kerrNewman","charge forgotten in the cross term","C96",file=F)
