import Mathlib.Analysis.Calculus.Deriv.Basic
import Mathlib.LinearAlgebra.Matrix.NonsingularInverse
import Mathlib.LinearAlgebra.Matrix.Notation
import Mathlib.Analysis.SpecialFunctions.Trigonometric.Basic
import Verif.Py.Basic

/-!
# Vocabulary for the properties of numeric metrics: partial derivatives, Levi-Civita symbols, geodesic acceleration
-/

namespace Einpy.Num
open Topology

/-- `dG k i j` is the partial derivative of `G_{ij}` with respect to coordinate number `k` at `x`. -/
def HasPartials (G : (Fin 4 → ℝ) → Matrix (Fin 4) (Fin 4) ℝ) (dG : Fin 4 → Fin 4 → Fin 4 → ℝ) (x : Fin 4 → ℝ) : Prop :=
  ∀ k i j, HasDerivAt (fun s => G (Function.update x k s) i j) (dG k i j) (x k)

/-- `½ g^{im} (∂_l g_{mk} + ∂_k g_{ml} - ∂_m g_{kl})` -/
noncomputable def christoffelFormula (Gi : Matrix (Fin 4) (Fin 4) ℝ) (dG : Fin 4 → Fin 4 → Fin 4 → ℝ)
    (i k l : Fin 4) : ℝ :=
  1 / 2 * ∑ m, Gi i m * (dG l m k + dG k m l - dG m k l)

/-- `Γ` are the Christoffel symbols of the second kind of the metric `G` at `x`. -/
def IsLeviCivita (G : (Fin 4 → ℝ) → Matrix (Fin 4) (Fin 4) ℝ) (x : Fin 4 → ℝ) (Γ : Fin 4 → Fin 4 → Fin 4 → ℝ) : Prop :=
  ∃ dG Gi, HasPartials G dG x ∧ Gi * G x = 1 ∧ ∀ i k l, Γ i k l = christoffelFormula Gi dG i k l

/-- The method `f` returns the matrix `G y` at every point `y` of a neighbourhood of `x`. -/
def ReturnsNear {α : Type} (f : (Fin 4 → ℝ) → Py α) (G : (Fin 4 → ℝ) → α) (x : Fin 4 → ℝ) : Prop :=
  ∀ᶠ y in 𝓝 x, f y = .ok (G y)

/-- `-Γ^i_{kl} v^k v^l` -/
noncomputable def geodesicAccel (Γ : Fin 4 → Fin 4 → Fin 4 → ℝ) (v : Fin 4 → ℝ) : Fin 4 → ℝ :=
  fun i => -∑ k, ∑ l, Γ i k l * v k * v l

/-- `g_{ij} v^i v^j` -/
noncomputable def normSq (g : Matrix (Fin 4) (Fin 4) ℝ) (v : Fin 4 → ℝ) : ℝ := ∑ i, ∑ j, g i j * v i * v j

/-- The Kerr-Newman line element in Boyer-Lindquist coordinates, signature (+,-,-,-), for the spin length `al`, the
Schwarzschild radius `rs` and the squared charge length `rQ2`. -/
noncomputable def knLineElement (c rs al rQ2 : ℝ) (x : Fin 4 → ℝ) : Matrix (Fin 4) (Fin 4) ℝ :=
  let r := x 1
  let s := Real.sin (x 2)
  let S := r ^ 2 + al ^ 2 * Real.cos (x 2) ^ 2
  let D := r ^ 2 - rs * r + al ^ 2 + rQ2
  !![c ^ 2 * (D - al ^ 2 * s ^ 2) / S, 0, 0, c * al * s ^ 2 * (r ^ 2 + al ^ 2 - D) / S;
     0, -S / D, 0, 0;
     0, 0, -S, 0;
     c * al * s ^ 2 * (r ^ 2 + al ^ 2 - D) / S, 0, 0, -s ^ 2 * ((r ^ 2 + al ^ 2) ^ 2 - D * al ^ 2 * s ^ 2) / S]

/-- The Schwarzschild line element in spherical coordinates, signature (+,-,-,-), for the Schwarzschild radius `rs`. -/
noncomputable def schwarzschildLineElement (c rs : ℝ) (x : Fin 4 → ℝ) : Matrix (Fin 4) (Fin 4) ℝ :=
  !![c ^ 2 * (1 - rs / x 1), 0, 0, 0;
     0, -(1 - rs / x 1)⁻¹, 0, 0;
     0, 0, -(x 1 ^ 2), 0;
     0, 0, 0, -(x 1 ^ 2 * Real.sin (x 2) ^ 2)]

/-- `F_{ab} = ∂_a A_b - ∂_b A_a` at `x`. -/
def IsCurlOf (A : (Fin 4 → ℝ) → Fin 4 → ℝ) (F : Matrix (Fin 4) (Fin 4) ℝ) (x : Fin 4 → ℝ) : Prop :=
  ∃ dA : Fin 4 → Fin 4 → ℝ, (∀ a b, HasDerivAt (fun s => A (Function.update x a s) b) (dA a b) (x a)) ∧
    ∀ a b, F a b = dA a b - dA b a

end Einpy.Num
