MUTS=[]
def m(id,file,old,new,defn,edit,claim,nth=0,tightened=None):
    d=dict(id=id,file=file,old=old,new=new,defn=defn,edit=edit,claim=claim,nth=nth)
    if tightened: d["tightened"]=tightened
    MUTS.append(d)
m("m410","Misc/Plot.lean","  | some _ => (.ok (), { p with fig := some [] })","  | some _ => (.ok (), { p with fig := some [], ax := none })","SPlotter.clear","axes forgotten","C84",tightened=["C83_static_clear"])
m("m411","Misc/Plot.lean","ylabel := \"$X\" ++ toString B ++","ylabel := \"$X\" ++ toString A ++","SPlotter.plot2D","label of the ordinate","C83",tightened=["C83_labels"])
m("m412","Coord/Model.lean","  return four (← blToCartNovel p alpha)","  return four (← blToCartNovel p 0)","blToCartFast","spin ignored without velocities","coordinates")
m("m413","Tensor/Model.lean","  get idx := a.get (idx.take a.rank) * b.get (idx.drop a.rank)","  get idx := a.get (idx.drop b.rank) * b.get (idx.take b.rank)","NDArr.tensorproduct","factors exchanged","tensor")
m("m414","Num/Model.lean","  (i, j) ∈ [(3, 0), (0, 3), (0, 0), (1, 1), (2, 2), (3, 3)]","  (i, j) ∈ [(3, 0), (0, 0), (1, 1), (2, 2), (3, 3)]","ncContra","entry (0,3) of the inverse metric forgotten","nonzero Christoffels")
m("m415","Curv/Model.lean","def Obj.expr (t : Obj R) : R := t.arr.get []","def Obj.expr (t : Obj R) : R := t.arr.get [] + t.arr.get []","Obj.expr","entry counted twice","curvature")
m("m416","Dual/Compare.lean","if x.val = y.val then .ok (decide (x.deriv = y.deriv)) else .ok false","if x.val = y.val then .ok true else .ok (decide (x.deriv = y.deriv))","Dual.eqPy","or for and","C127")
m("m417","Dual/Compare.lean","Py Bool := do return !(← x.eqPy other)","Py Bool := do return (← x.eqPy other)","Dual.nePy","negation dropped","C127")
m("m418","Dual/Compare.lean","  | .num a, .dual y => y.eqPy (.num a)","  | .num _, .dual _ => .ok false","Val.eqPy","reflected comparison false","C127")
m("m419","Misc/Plot.lean","    | none => .error .attributeError\n    | some (r1, t1, v)","    | none => .ok none\n    | some (r1, t1, v)","ShadowPlotter.show'","nothing shown before plot","C84")
m("m420","Misc/Plot.lean","fun i j => do return (← r1 i j) * Real.sin (← t1 i j), v⟩","fun i j => do return (← r1 i j) * Real.cos (← t1 i j), v⟩","ShadowPlotter.show'","ordinate uses cos","C84")
m("m421","Tensor/Model.lean","    | some i, none => if i < t1.config.length then .error .typeError else .error .indexError","    | some _, none => .error .typeError","tensorProduct","i out of range with j omitted is a TypeError","C04",tightened=["C04_one_index_raises_partial"])
m("m422","Tensor/Model.lean","    | some i, some j => tensorProductAt t1 t2 i j","    | some i, some j => tensorProductAt t1 t2 j i","tensorProduct","indices exchanged","C04")
m("m423","Tensor/Model.lean","  | _, _ => .error .indexError","  | _, _ => .error .valueError","tensorProductAt","ValueError for an index that does not exist","C04",tightened=["C04_out_of_range"])
