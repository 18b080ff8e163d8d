MUTS=[
dict(id="m484",file="Misc/Plot.lean",old="⟨ergo, ⟨[], fun _ => none⟩⟩",new="⟨true, ⟨[], fun _ => none⟩⟩",defn="IPlotter.new",edit="draw_ergosphere ignored",claim="C59 C83",tightened=["C83_ergosphere_flag"]),
dict(id="m485",file="Misc/Plot.lean",old=": SPlotter := ⟨ergo, none, ax⟩",new=": SPlotter := ⟨ergo, none, none⟩",defn="SPlotter.new",edit="the axes passed by the user are dropped",claim="C83",tightened=["C83_save_before_drawing"]),
dict(id="m495",file="Num/Units.lean",old="  return Kerr.new k system (primitive M) (primitive a)",new="  return Kerr.new k system (primitive a) (primitive M)",defn="Kerr.make",edit="mass and spin exchanged",claim="C72",tightened=["C72_si_kerr_partial"]),
dict(id="m497",file="Vars/History.lean",old="if setSelf then return (b, { t with arr := b }) else return (b, t)",new="return (b, { t with arr := b })",defn="TObject.simplify",edit="set_self ignored: always stored",claim="C150"),
dict(id="m498",file="Vars/History.lean",old="if setSelf then return (b, { t with arr := b }) else return (b, t)",new="if setSelf then return (t.arr, { t with arr := b }) else return (b, t)",defn="TObject.simplify",edit="the old array is returned",claim="C150"),
dict(id="m499",file="Vars/History.lean",old="(parseIndex used idx * rest.prod)).take rest.prod",new="(parseIndex used idx)).take rest.prod",defn="TObject.getitem",edit="offset of the sub-array not multiplied by its size",claim="C150"),
dict(id="m500",file="Vars/History.lean",old="  if ¬ InRange used idx then .error .valueError\n  else if rest",new="  if rest",defn="TObject.getitem",edit="indices not checked",claim="C150"),
dict(id="m501",file="Vars/History.lean",old="  | .tensor => (.ok (.array t.arr), t)",new="  | .tensor => (.ok (.array t.arr), { t with arr := ⟨[], []⟩ })",defn="TObject.call",edit="tensor() hands over its array",claim="C150"),
dict(id="m503",file="Curv/Model.lean",old="  let ch ← christoffelFromMetric D m\n  riemannFromChristoffels D ch none",new="  let ch ← christoffelFromMetric D m\n  let ch ← ch.changeConfig ['l', 'l', 'l'] (some m)\n  riemannFromChristoffels D { ch with config := ['u', 'l', 'l'] } none",defn="riemannFromMetric",edit="lowered Christoffel symbols used",claim="C15 C22 C139"),
dict(id="m504",file="Curv/Model.lean",old="  ricciFromRiemann rt none\n\n/-- ricci.py:96-109",new="  ricciFromRiemann { rt with config := ['u', 'l', 'l', 'l'], parent := none } none\n\n/-- ricci.py:96-109",defn="ricciFromChristoffels",edit="parent metric lost",claim="C17"),
dict(id="m505",file="Curv/Model.lean",old="  let ch ← christoffelFromMetric D m\n  scalarFromChristoffels D ch none",new="  let ch ← christoffelFromMetric D m\n  scalarFromChristoffels D ch (some { m with config := ['l', 'l'] })",defn="scalarFromMetric",edit="a contravariant metric relabelled as covariant is used for the trace",claim="C17 C22"),
dict(id="m506",file="Curv/Model.lean",old="    let sc ← scalarFromRicci ric none\n    let dims := m.syms.length\n    let lo",new="    let sc ← scalarFromRicci ric none\n    let dims := m.syms.length + 1\n    let lo",defn="schoutenFromMetric",edit="dimension off by one",claim="C20 C148"),
dict(id="m507",file="Curv/Model.lean",old="(.seq m.syms) (.str ['l', 'l', 'l', 'l'])\n      (some m) (some \"WeylTensor\")\n  else .error",new="(.seq m.syms) (.str ['u', 'l', 'l', 'l'])\n      (some m) (some \"WeylTensor\")\n  else .error",defn="weylFromMetric",edit="wrong configuration in three dimensions",claim="C19"),
]
