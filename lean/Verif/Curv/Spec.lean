import Mathlib.LinearAlgebra.Matrix.NonsingularInverse
import Mathlib.RingTheory.Derivation.Basic
import Mathlib.Algebra.Algebra.Rat

/-!
# Specification: classical tensor formulas of (pseudo-)Riemannian geometry

Textbook index formulas, written independently of the code.  `R` is a ring of functions containing the
rationals, `∂ i` the partial derivative along coordinate `i`, `g` the matrix of the covariant metric.
-/

namespace Einpy.Geo

variable {ι R : Type*} [Fintype ι] [DecidableEq ι] [CommRing R] [Algebra ℚ R]
variable (d : ι → Derivation ℚ R R) (g : Matrix ι ι R)

/-- One half. -/
abbrev half (x : R) : R := ((2 : ℚ)⁻¹) • x

/-- Christoffel symbols of the second kind `Γ^i_{jk} = ½ Σ_n g^{in} (∂_k g_nj + ∂_j g_nk − ∂_n g_jk)`. -/
noncomputable def christoffel (i j k : ι) : R :=
  half (∑ n, g⁻¹ i n * (d k (g n j) + d j (g n k) - d n (g j k)))

/-- Riemann tensor
`R^t_{srn} = ∂_r Γ^t_{sn} − ∂_n Γ^t_{sr} + Σ_p (Γ^p_{sn} Γ^t_{pr} − Γ^p_{sr} Γ^t_{pn})`. -/
noncomputable def riemann (t s r n : ι) : R :=
  d r (christoffel d g t s n) - d n (christoffel d g t s r) +
    ∑ p, (christoffel d g p s n * christoffel d g t p r - christoffel d g p s r * christoffel d g t p n)

/-- Lowered Riemann tensor `R_{asrn} = Σ_t g_{at} R^t_{srn}`. -/
noncomputable def riemannLow (a s r n : ι) : R := ∑ t, g a t * riemann d g t s r n

/-- Ricci tensor `R_{ab} = Σ_t R^t_{atb}`. -/
noncomputable def ricci (a b : ι) : R := ∑ t, riemann d g t a t b

/-- Ricci scalar `R = Σ g^{ab} R_{ab}`. -/
noncomputable def scalar : R := ∑ a, ∑ b, g⁻¹ a b * ricci d g a b

/-- Einstein tensor `G_{ab} = R_{ab} − ½ R g_{ab}`. -/
noncomputable def einstein (a b : ι) : R := ricci d g a b - half (scalar d g * g a b)

/-- Covariant derivative of a covariant 2-tensor:
`∇_k T_{ab} = ∂_k T_{ab} − Σ_m Γ^m_{ka} T_{mb} − Σ_m Γ^m_{kb} T_{am}`. -/
noncomputable def cov2 (T : ι → ι → R) (k a b : ι) : R :=
  d k (T a b) - ∑ m, christoffel d g m k a * T m b - ∑ m, christoffel d g m k b * T a m

/-- Covariant divergence `∇^a T_{ab} = Σ g^{ka} ∇_k T_{ab}`. -/
noncomputable def div2 (T : ι → ι → R) (b : ι) : R := ∑ k, ∑ a, g⁻¹ k a * cov2 d g T k a b

/-- Weyl tensor in dimension `n`:
`C_{iklm} = R_{iklm} + (R_{im} g_{kl} − R_{il} g_{km} + R_{kl} g_{im} − R_{km} g_{il})/(n−2)
  + R (g_{il} g_{km} − g_{im} g_{kl})/((n−1)(n−2))`. -/
noncomputable def weyl (i k l m : ι) : R :=
  let n : ℚ := Fintype.card ι
  riemannLow d g i k l m
    + (n - 2)⁻¹ • (ricci d g i m * g k l - ricci d g i l * g k m
        + ricci d g k l * g i m - ricci d g k m * g i l)
    + ((n - 1) * (n - 2))⁻¹ • (scalar d g * (g i l * g k m - g i m * g k l))

/-- Schouten tensor in dimension `n`: `S_{ab} = (R_{ab} − R g_{ab}/(2(n−1)))/(n−2)`. -/
noncomputable def schouten (a b : ι) : R :=
  let n : ℚ := Fintype.card ι
  (n - 2)⁻¹ • (ricci d g a b - (2 * (n - 1))⁻¹ • (scalar d g * g a b))

/-- Kulkarni–Nomizu product of two covariant 2-tensors. -/
def kulkarniNomizu (S T : ι → ι → R) (i k l m : ι) : R :=
  S i l * T k m + S k m * T i l - S i m * T k l - S k l * T i m

end Einpy.Geo
