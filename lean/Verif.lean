import Verif.Tensor.Model
import Verif.Tensor.Spec
import Verif.Tensor.Lemmas
import Verif.Tensor.Lemmas2
import Verif.Tensor.Props
import Verif.Tensor.Props2
import Verif.Tensor.Props3
import Verif.Tensor.Moves
import Verif.Metric.Model
import Verif.Metric.Props
import Verif.Arrays.Model
import Verif.Arrays.Props
import Verif.Vars.Model
import Verif.Vars.Props
import Verif.Curv.Spec
import Verif.Curv.Geo
import Verif.Curv.Geo2
import Verif.Curv.Geo3
import Verif.Curv.Model
import Verif.Curv.Lemmas
import Verif.Curv.Paths
import Verif.Curv.Example
import Verif.Curv.Props
import Verif.Curv.Props2
import Verif.Curv.Covariance
import Verif.Curv.Props3
import Verif.Curv.Conformal
import Verif.Curv.Props4
import Verif.Curv.FloatIndex
import Verif.Dual.Model
import Verif.Dual.Props
import Verif.Dual.Props2
import Verif.Integ.Model
import Verif.Integ.Lemmas
import Verif.Integ.Props
import Verif.Geodesic.Model
import Verif.Integ.Props2
import Verif.Integ.Symplectic
import Verif.Geodesic.Props
import Verif.Geodesic.Total
import Verif.Geodesic.Named
import Verif.Num.Model
import Verif.Num.Spec
import Verif.Num.Lemmas
import Verif.Num.Tables
import Verif.Num.Exec
import Verif.Num.Norm
import Verif.Num.SchTab
import Verif.Num.Props
import Verif.Num.Props2
import Verif.Num.Props3
import Verif.Num.Props4
import Verif.Num.Units
import Verif.Num.Props5
import Verif.Num.Conserved
import Verif.Num.Geodesics
import Verif.Coord.ObjProps
import Verif.Coord.ObjProps2
import Verif.Misc.Cosmo
import Verif.Misc.Embedding
import Verif.Misc.Shadow
import Verif.Misc.Fractal
import Verif.Misc.Plot
import Verif.Misc.Smooth
import Verif.Misc.Transf
import Verif.Predef.Model
import Verif.Predef.Props
import Verif.Predef.Props2
import Verif.Predef.Signature
import Verif.Predef.Find
import Verif.Predef.Diag
import Verif.Predef.Spherical
import Verif.Predef.Vacuum
import Verif.Predef.Vacuum2
import Verif.Predef.DeSitter
import Verif.Predef.Sources
import Verif.Predef.Godel
import Verif.Predef.Ernst
import Verif.Predef.Davidson
import Verif.Predef.Field
import Verif.Predef.KerrGeo
import Verif.Predef.KerrRicci
import Verif.Predef.Kerr
import Verif.Predef.CMetric
import Verif.Predef.Bessel
import Verif.Predef.Jnw
import Verif.Predef.Instance
import Verif.Predef.Instance2
import Verif.Misc.Anim
import Verif.Integ.RK45
import Verif.Coord.Body
import Verif.Integ.Flow
import Verif.Integ.FlowAlg
import Verif.Integ.Converge
import Verif.Integ.Order
import Verif.Integ.Order2
import Verif.Integ.Geod
import Verif.Integ.RungeKutta
import Verif.Integ.RungeKutta2
import Verif.Integ.RKPy
import Verif.Integ.Shell
import Verif.Num.FourVel
import Verif.Geodesic.Symmetry
import Verif.Geodesic.Circular
import Verif.Num.Carter
import Verif.Curv.Space
import Verif.Predef.ConstCurv
import Verif.Integ.Flat
import Verif.Num.Affine
import Verif.Num.Scale
import Verif.Num.ScaleTab
import Verif.Num.Symmetry
import Verif.Num.Circular
import Verif.Curv.Specialise
import Verif.Curv.Indep
import Verif.Curv.Product
import Verif.Predef.Tidal
import Verif.Predef.Warp
import Verif.Dual.Compare
import Verif.Geodesic.Reversal
import Verif.Geodesic.Photon
import Verif.Num.Agree
import Verif.Num.FirstIntegral
import Verif.Geodesic.Trap
import Verif.Geodesic.Bound
import Verif.Curv.Functions
import Verif.Num.Symbolic
import Verif.Curv.Deviation
import Verif.Curv.Transport
import Verif.Integ.Rounding
import Verif.Curv.FlatPaths
import Verif.Curv.Frobenius
import Verif.Curv.Flat
import Verif.Curv.Cotton
import Verif.Curv.Tractor
import Verif.Curv.Parallel
import Verif.Curv.ConfFlat
import Verif.Curv.Schur
import Verif.Curv.Cotton3
import Verif.Curv.Quadric
import Verif.Curv.SpaceForm
import Verif.Curv.DiagFn
import Verif.Curv.Birkhoff
import Verif.Vars.History
import Verif.Misc.Save
