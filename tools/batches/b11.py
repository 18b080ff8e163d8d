MUTS=[]
def m(id,file,old,new,defn,edit,claim,nth=0,tightened=None):
    d=dict(id=id,file=file,old=old,new=new,defn=defn,edit=edit,claim=claim,nth=nth)
    if tightened: d["tightened"]=tightened
    MUTS.append(d)
m("m385","Coord/Objects.lean","  | .bl => \"BoyerLindquist\"","  | .bl => \"Spherical\"","Sys.name","wrong name","objects",tightened=["C75_bad_index","C76_coordinate_error","C76_normalised"])
m("m386","Geodesic/Model.lean","Geodesic.new metric params position momentum true returnCartesian kw","Geodesic.new metric params position momentum false returnCartesian kw","Timelike.new","null geodesics","C34..")
m("m387","Geodesic/Model.lean","if timeLike then \"Time-like\" else \"Null-like\"","if timeLike then \"Null-like\" else \"Time-like\"","Geodesic.new","kind exchanged","C34..")
m("m388","Geodesic/Model.lean","if returnCartesian then \"Cartesian\" else \"Spherical Polar\"","if returnCartesian then \"Spherical Polar\" else \"Cartesian\"","Geodesic.new","coordinates exchanged","C34..")
m("m389","Geodesic/Model.lean","    | .str \"Schwarzschild\" => some [0]\n    | _ => params","    | _ => params","Geodesic.new","Schwarzschild parameters not replaced","C34..")
m("m390","Geodesic/Model.lean","  if I.results = [] then throw .indexError\n  else if","  if","calculateTrajectory","no error for steps ≤ 0","C34..")
m("m391","Misc/Plot.lean","let ax : Axes := ⟨\"3d\", drawBh p.ergo a,","let ax : Axes := ⟨\"3d\", drawBh false a,","SPlotter.plot","ergosphere never drawn","C83")
m("m392","Misc/Plot.lean","  | some _ => (.ok (), { p with fig := some [] })","  | some _ => (.ok (), { p with fig := some [], ax := none })","SPlotter.clear","axes forgotten","C84")
m("m393","Misc/Plot.lean","if ax.name ≠ \"3d\" ∧ name = \"Geodesic.png\"","if ax.name = \"3d\" ∧ name = \"Geodesic.png\"","SPlotter.save","condition reversed","C84")
m("m394","Misc/Plot.lean","(.ok (), { p with fig := ⟨[], fun _ => none⟩ })","(.ok (), { p with fig := ⟨[], p.fig.layout⟩ })","IPlotter.clear","layout kept","C84")
m("m395","Misc/Plot.lean","Trace.mk .curve (\"X2 (\" ++ g.coords ++ \")\") (zip2 l y), Trace.mk .curve (\"X3 (\" ++ g.coords ++ \")\") (zip2 l z)], title := title }","Trace.mk .curve (\"X2 (\" ++ g.coords ++ \")\") (zip2 l y), Trace.mk .curve (\"X3 (\" ++ g.coords ++ \")\") (zip2 l y)], title := title }","SPlotter.parametricPlot","third coordinate wrong","C83")
m("m396","Misc/Plot.lean","ylabel := \"$X\" ++ toString B ++","ylabel := \"$X\" ++ toString A ++","SPlotter.plot2D","label of the ordinate","C83")
m("m397","Misc/Plot.lean","if A ∉ [1, 2, 3] ∨ B ∉ [1, 2, 3] then (.error .indexError, { p with fig := some [ax], ax := some ax })","if A ∉ [1, 2, 3] ∧ B ∉ [1, 2, 3] then (.error .indexError, { p with fig := some [ax], ax := some ax })","SPlotter.plot2D","both must be wrong","C83")
m("m398","Misc/Plot.lean","  | some shell => if shell = \"ZMQInteractiveShell\" then .interactive","  | some shell => if shell = \"ZMQInteractiveShell\" then .static","inIpynb","static in notebooks","C84")
m("m399","Dual/Model.lean","    if y.deriv = 0 then .error .zeroDivisionError else .ok ⟨x.deriv / y.deriv, 0⟩\n  else if","    .error .zeroDivisionError\n  else if","truediv","no l'Hopital","duals")
m("m400","Dual/Model.lean","⟨-x.val, -x.deriv⟩","⟨-x.val, x.deriv⟩","neg","derivative keeps its sign","duals")
m("m401","Dual/Model.lean","⟨Real.cos x.val, -x.deriv * Real.sin x.val⟩","⟨Real.cos x.val, x.deriv * Real.sin x.val⟩","cos","sign","duals")
m("m402","Dual/Model.lean","return ⟨v, x.deriv * p * w⟩","return ⟨v, p * w⟩","pow","chain rule","duals")
m("m403","Tensor/Model.lean","if m.config = ['l', 'l'] then m.changeConfig ['u', 'u'] else m.changeConfig ['l', 'l']","m.changeConfig ['u', 'u']","inv","contravariant metric not inverted","metric")
m("m404","Tensor/Model.lean","  if m.config = ['l', 'l'] then .ok m else m.inv","  .ok m","lowerConfig","not lowered","metric")
m("m405","Tensor/Model.lean","             name := changeName m.name (\"__\" ++ String.ofList newconfig) }\n  else .error .valueError","             name := m.name }\n  else .error .valueError","changeConfig","name unchanged","metric")
m("m406","Tensor/Model.lean","if n_ch = o_ch then 0 else if n_ch = 'u' then 1 else -1","if n_ch = o_ch then 0 else if n_ch = 'u' then -1 else 1","differenceList","signs exchanged","tensor")
m("m407","Tensor/Model.lean","    | .otherSized n => if d ≠ n then some .valueError else none","    | .otherSized n => if d < n then some .valueError else none","shapeCheck","too few symbols accepted","tensor")
m("m408","Tensor/Model.lean","        if a.shape.length ≠ c.length then .error .valueError","        if a.shape.length < c.length then .error .valueError","mkTensor","short configuration accepted","tensor")
m("m409","Predef/Model.lean","1 - sch / r","1 + sch / r","schwarzschild","sign of the mass","C125")
