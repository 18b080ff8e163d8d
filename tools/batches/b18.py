MUTS=[
dict(id="m480",file="Coord/Objects.lean",old="  let b ← checkDim b sys.posDim.2.1\n  let c ← checkDim c sys.posDim.2.2\n  let v1 ←",new="  let c ← checkDim c sys.posDim.2.2\n  let b ← checkDim b sys.posDim.2.1\n  let v1 ←",defn="DiffObj.new",edit="third coordinate checked before the second (harmless unless both are wrong; same error)",claim="none: equivalent program",tightened=[]),
dict(id="m481",file="Coord/Objects.lean",old="  let v3 ← checkDim v3 sys.velDim.2.2\n",new="",defn="DiffObj.new",edit="the unit of the third velocity component is not checked",claim="C74 C75 C79"),
dict(id="m482",file="Coord/Objects.lean",old="(.ofSI p.b tgt.posDim.2.1) (.ofSI p.c tgt.posDim.2.2)",new="(.ofSI p.c tgt.posDim.2.1) (.ofSI p.b tgt.posDim.2.2)",defn="CoordObj.to",edit="second and third converted coordinate exchanged",claim="C79"),
dict(id="m483",file="Integ/RKPy.lean",old="⟨t0, y0, tBound, h, f, 1 *",new="⟨tBound, y0, tBound, h, f, 1 *",defn="RK4Py.new",edit="starts at the final time",claim="C115 C121 C130 C136"),
dict(id="m484",file="Misc/Plot.lean",old="⟨ergo, ⟨[], fun _ => none⟩⟩",new="⟨true, ⟨[], fun _ => none⟩⟩",defn="IPlotter.new",edit="draw_ergosphere ignored",claim="C59 C83"),
dict(id="m485",file="Misc/Plot.lean",old=": SPlotter := ⟨ergo, none, ax⟩",new=": SPlotter := ⟨ergo, none, none⟩",defn="SPlotter.new",edit="the axes passed by the user are dropped",claim="C83 C98"),
dict(id="m486",file="Misc/Plot.lean",old="([p.shadow.fb1.zip p.shadow.intensity, p.shadow.fb2.zip p.shadow.intensity], p)",new="([p.shadow.fb1.zip p.shadow.intensity, p.shadow.fb1.zip p.shadow.intensity], p)",defn="ShadowPlotter.plot",edit="second curve not mirrored",claim="C84"),
dict(id="m487",file="Misc/Plot.lean",old="let theta1 := linspace 0 (2 * Real.pi) p.shadow.fb1.length",new="let theta1 := linspace 0 Real.pi p.shadow.fb1.length",defn="ShadowPlotter.plot",edit="contour covers half of the circle",claim="C84"),
dict(id="m488",file="Coord/Model.lean",old="  cartToSphFast s.pos s.v1 s.v2 s.v3 s.velocitiesProvided",new="  cartToSphFast s.pos s.v1 s.v3 s.v2 s.velocitiesProvided",defn="Cartesian.convertSpherical",edit="velocity components exchanged",claim="C53 C54 C74 C79"),
dict(id="m489",file="Coord/Model.lean",old="  cartToBlFast s.pos alpha s.v1 s.v2 s.v3 s.velocitiesProvided",new="  cartToBlFast s.pos a s.v1 s.v2 s.v3 s.velocitiesProvided",defn="Cartesian.convertBl",edit="spin not scaled to a length",claim="C52 C53 C54 C79"),
dict(id="m490",file="Coord/Model.lean",old="  sphToCartFast s.pos s.v1 s.v2 s.v3 s.velocitiesProvided",new="  sphToCartFast s.pos s.v1 s.v2 s.v3 (!s.velocitiesProvided)",defn="Spherical.convertCartesian",edit="flag negated",claim="C51 C74"),
dict(id="m491",file="Dual/Compare.lean",old="  | .num a, .dual y => y.nePy (.num a)",new="  | .num _, .dual _ => .ok true",defn="Val.nePy",edit="number != dual is True instead of an error",claim="C127"),
dict(id="m492",file="Num/Model.lean",old='if m.system = "Spherical" then Schwarzschild.chSymS k m x else .error .coordinateError',new='Schwarzschild.chSymS k m x',defn="Schwarzschild.christoffels",edit="coordinate system not checked",claim="C49"),
dict(id="m493",file="Num/Model.lean",old='if m.system = "BoyerLindquist" then KerrNewman.chSymBl k m x else .error .coordinateError',new='KerrNewman.chSymBl k m x',defn="KerrNewman.christoffels",edit="coordinate system not checked",claim="C49"),
dict(id="m494",file="Num/Model.lean",old="  let chl ← Kerr.christoffels k m x\n  return (v, accel chl v)",new="  let chl ← Kerr.christoffels k m v\n  return (v, accel chl v)",defn="Kerr.fVecBl",edit="Christoffel symbols at the velocity instead of the position",claim="C45 C114 C121 C130"),
dict(id="m495",file="Num/Units.lean",old="  return Kerr.new k system (primitive M) (primitive a)",new="  return Kerr.new k system (primitive a) (primitive M)",defn="Kerr.make",edit="mass and spin exchanged",claim="C72"),
dict(id="m496",file="Num/Units.lean",old="  let M ← quantityInput M .mass\n  return Schwarzschild.new",new="  return Schwarzschild.new",defn="Schwarzschild.make",edit="unit of the mass not checked",claim="C72"),
]
MUTS=MUTS[1:]
