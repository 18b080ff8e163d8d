MUTS=[
dict(id="m513",file="Misc/Plot.lean",old="  if p.isLine then .ok none\n  else match p.mesh with\n    | none => .error .attributeError\n    | some (r1, t1, v) => .ok (some ⟨fun i j => do return (← r1 i j) * Real.cos (← t1 i j),\n        fun i j => do return (← r1 i j) * Real.sin (← t1 i j), v⟩)",new="  if p.isLine then .ok none\n  else match p.mesh with\n    | none => .error .attributeError\n    | some (r1, t1, v) => .ok (some ⟨fun i j => do return (← r1 i j) * Real.sin (← t1 i j),\n        fun i j => do return (← r1 i j) * Real.cos (← t1 i j), v⟩)",defn="ShadowPlotter.show'",edit="axes swapped",claim="shadow contour in Cartesian coordinates"),
dict(id="m514",file="Misc/Plot.lean",old="  if p.isLine then .ok none\n  else match p.mesh with\n    | none => .error .attributeError",new="  match p.mesh with\n    | none => .error .attributeError",defn="ShadowPlotter.show'",edit="a contour is required for line plots too",claim="show of a line plot"),
dict(id="m515",file="Vars/History.lean",old="  let argList := if args.length = 0 then t.syms ++ t.vars else args",new="  let argList := if args.length = 0 then t.vars ++ t.syms else args",defn="TObject.lambdify",edit="variables before the coordinates",claim="C150"),
dict(id="m516",file="Vars/History.lean",old="  let argList := if args.length = 0 then t.syms ++ t.vars else args",new="  let argList := t.syms ++ t.vars",defn="TObject.lambdify",edit="given arguments ignored",claim="C150"),
dict(id="m517",file="Curv/Model.lean",old="  let ch ← christoffelFromMetric D m\n  ricciFromChristoffels D ch none",new="  let ch ← christoffelFromMetric D m\n  let ch ← toConfig ch ['l', 'l', 'l'] (some m)\n  ricciFromChristoffels D ch none",defn="ricciFromMetric",edit="index of the symbols lowered on the way",claim="a detour that the later change of configuration undoes: equivalent"),
]
