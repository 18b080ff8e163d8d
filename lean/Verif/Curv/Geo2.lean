import Verif.Curv.Geo
import Mathlib.LinearAlgebra.Matrix.Trace

/-!
# Ricci symmetry, second Bianchi identity and its contraction
-/

set_option linter.unusedSectionVars false

namespace Einpy.Geo

variable {ι R : Type*} [Fintype ι] [DecidableEq ι] [CommRing R] [Algebra ℚ R]
variable (d : ι → Derivation ℚ R R) (g : Matrix ι ι R)

/-- contraction with the inverse metric -/
noncomputable def tr2 (T : ι → ι → R) : R := ∑ a, ∑ r, g⁻¹ a r * T a r

theorem tr2_eq (T : Matrix ι ι R) : tr2 g T = (g⁻¹ * T.transpose).trace := by
  simp only [tr2, Matrix.trace, Matrix.diag_apply, Matrix.mul_apply, Matrix.transpose_apply]

theorem tr2_add (S T : ι → ι → R) : tr2 g (fun a b => S a b + T a b) = tr2 g S + tr2 g T := by
  simp only [tr2, mul_add, Finset.sum_add_distrib]

theorem tr2_sub (S T : ι → ι → R) : tr2 g (fun a b => S a b - T a b) = tr2 g S - tr2 g T := by
  simp only [tr2, mul_sub, Finset.sum_sub_distrib]

theorem tr2_mul_left (c : R) (T : ι → ι → R) : tr2 g (fun a b => c * T a b) = c * tr2 g T := by
  simp only [tr2, Finset.mul_sum]
  exact Finset.sum_congr rfl fun a _ => Finset.sum_congr rfl fun b _ => by ring

theorem tr2_sum (T : ι → ι → ι → R) :
    tr2 g (fun a b => ∑ m, T m a b) = ∑ m, tr2 g (T m) := by
  simp only [tr2, Finset.mul_sum]
  rw [Finset.sum_congr rfl fun a _ => Finset.sum_comm]
  exact Finset.sum_comm

theorem scalar_eq : scalar d g = tr2 g (ricci d g) := rfl

section
variable (hs : g.transpose = g) (hu : IsUnit g.det)
include hu

theorem tr2_g (hs : g.transpose = g) : tr2 g g = (Fintype.card ι : R) := by
  rw [tr2_eq, hs, Matrix.nonsing_inv_mul g hu, Matrix.trace_one]

/-- raising one slot undoes lowering it -/
theorem raise_low (t s r n : ι) : ∑ a, g⁻¹ t a * riemannLow d g a s r n = riemann d g t s r n := by
  have : ∑ a, g⁻¹ t a * riemannLow d g a s r n = (g⁻¹ * (g * F d g r n)) t s := by
    rw [Matrix.mul_apply]
    exact Finset.sum_congr rfl fun a _ => by rw [riemannLow_eq]
  rw [this, ← Matrix.mul_assoc, Matrix.nonsing_inv_mul g hu, Matrix.one_mul]
  rfl

include hs
theorem ricci_low (s n : ι) : ricci d g s n = tr2 g (fun a r => riemannLow d g a s r n) := by
  unfold ricci tr2
  rw [Finset.sum_comm]
  refine Finset.sum_congr rfl fun t _ => ?_
  rw [← raise_low d g hu]
  exact Finset.sum_congr rfl fun a _ => by rw [ginv_symm g hs]

/-- matrix covariant derivative -/
noncomputable def covM (k : ι) (T : Matrix ι ι R) : Matrix ι ι R :=
  dM d k T - (A d g k).transpose * T - T * A d g k

omit hu in
theorem covM_apply (k a b : ι) (T : Matrix ι ι R) : covM d g k T a b = cov2 d g T k a b := by
  unfold covM cov2
  rw [Matrix.sub_apply, Matrix.sub_apply, dM_apply, Matrix.mul_apply, Matrix.mul_apply]
  congr 1
  · congr 1
    exact Finset.sum_congr rfl fun m _ => by
      rw [Matrix.transpose_apply, A, christoffel_symm d g hs]
  · exact Finset.sum_congr rfl fun m _ => by
      rw [A, christoffel_symm d g hs]; ring

theorem d_tr2 (k : ι) (T : Matrix ι ι R) :
    d k (tr2 g T) = tr2 g (fun a b => cov2 d g T k a b) := by
  have h1 : d k (tr2 g T) = (dM d k (g⁻¹ * T.transpose)).trace := by
    rw [tr2_eq]; simp only [Matrix.trace, map_sum]; rfl
  have h2 : tr2 g (fun a b => cov2 d g T k a b) = (g⁻¹ * (covM d g k T).transpose).trace := by
    rw [← tr2_eq]
    unfold tr2
    exact Finset.sum_congr rfl fun a _ => Finset.sum_congr rfl fun b _ => by
      rw [covM_apply d g hs]
  rw [h1, h2, dM_mul, compatInv d g hs hu, dM_transpose]
  unfold covM
  simp only [Matrix.transpose_sub, Matrix.transpose_mul, Matrix.transpose_transpose, Matrix.mul_sub,
    Matrix.sub_mul, Matrix.neg_mul, Matrix.trace_sub, Matrix.trace_add, Matrix.trace_neg]
  rw [show A d g k * g⁻¹ * T.transpose = A d g k * (g⁻¹ * T.transpose) from Matrix.mul_assoc _ _ _,
    Matrix.trace_mul_comm (A d g k), Matrix.mul_assoc, Matrix.mul_assoc]
  ring

/-- the metric is covariantly constant -/
theorem cov2_g (k a b : ι) : cov2 d g g k a b = 0 := by
  unfold cov2
  rw [metric_compat d g hs hu k a b]
  ring

end

/-- covariant derivative of the lowered Riemann tensor -/
noncomputable def covLow (k a s r n : ι) : R :=
  cov2 d g (fun a s => riemannLow d g a s r n) k a s
    - ∑ m, christoffel d g m k r * riemannLow d g a s m n
    - ∑ m, christoffel d g m k n * riemannLow d g a s r m

section Full
variable (hd : ∀ i j x, d i (d j x) = d j (d i x)) (hs : g.transpose = g) (hu : IsUnit g.det)
include hd hs hu

/-- **Ricci tensor is symmetric** -/
theorem ricci_symm (a b : ι) : ricci d g a b = ricci d g b a := by
  rw [ricci_low d g hs hu, ricci_low d g hs hu]
  simp only [tr2]
  rw [Finset.sum_comm]
  refine Finset.sum_congr rfl fun x _ => Finset.sum_congr rfl fun y _ => ?_
  rw [ginv_symm g hs, riemannLow_pair d g hd hs hu]

theorem covLow_antisymm12 (k a s r n : ι) : covLow d g k a s r n = - covLow d g k s a r n := by
  have x := riemannLow_antisymm12 d g hd hs hu
  simp only [covLow, cov2]
  rw [x a s r n, map_neg]
  have e1 : ∑ m, christoffel d g m k a * riemannLow d g m s r n
      = - ∑ m, christoffel d g m k a * riemannLow d g s m r n := by
    rw [← Finset.sum_neg_distrib]
    exact Finset.sum_congr rfl fun m _ => by rw [x m s r n]; ring
  have e2 : ∑ m, christoffel d g m k s * riemannLow d g a m r n
      = - ∑ m, christoffel d g m k s * riemannLow d g m a r n := by
    rw [← Finset.sum_neg_distrib]
    exact Finset.sum_congr rfl fun m _ => by rw [x a m r n]; ring
  have e3 : ∀ (c : ι → R) (f f' : ι → ι), ∑ m, c m * riemannLow d g a s (f m) (f' m)
      = - ∑ m, c m * riemannLow d g s a (f m) (f' m) := by
    intro c f f'
    rw [← Finset.sum_neg_distrib]
    exact Finset.sum_congr rfl fun m _ => by rw [x a s]; ring
  rw [e1, e2, e3 _ (fun m => m) (fun _ => n), e3 _ (fun _ => r) (fun m => m)]
  ring

omit hd hs hu in
theorem covLow_antisymm34 (k a s r n : ι) : covLow d g k a s r n = - covLow d g k a s n r := by
  have y := riemannLow_antisymm34 d g
  simp only [covLow, cov2]
  rw [y a s r n, map_neg]
  have e1 : ∀ (c : ι → R) (f : ι → ι) (f' : ι → ι),
      ∑ m, c m * riemannLow d g (f m) (f' m) r n = - ∑ m, c m * riemannLow d g (f m) (f' m) n r := by
    intro c f f'
    rw [← Finset.sum_neg_distrib]
    exact Finset.sum_congr rfl fun m _ => by rw [y _ _ r n]; ring
  rw [e1 _ (fun m => m) (fun _ => s), e1 _ (fun _ => a) (fun m => m)]
  have e2 : ∑ m, christoffel d g m k r * riemannLow d g a s m n
      = - ∑ m, christoffel d g m k r * riemannLow d g a s n m := by
    rw [← Finset.sum_neg_distrib]
    exact Finset.sum_congr rfl fun m _ => by rw [y a s m n]; ring
  have e3 : ∑ m, christoffel d g m k n * riemannLow d g a s r m
      = - ∑ m, christoffel d g m k n * riemannLow d g a s m r := by
    rw [← Finset.sum_neg_distrib]
    exact Finset.sum_congr rfl fun m _ => by rw [y a s r m]; ring
  rw [e2, e3]
  ring

/-- gauge-covariant derivative of the curvature matrices -/
noncomputable def DF (k r n : ι) : Matrix ι ι R :=
  dM d k (F d g r n) + A d g k * F d g r n - F d g r n * A d g k

omit hs hu in
theorem DF_cyclic (k r n : ι) : DF d g k r n + DF d g r n k + DF d g n k r = 0 := by
  unfold DF
  simp only [F_eq, dM_add, dM_sub, dM_mul]
  rw [dM_comm d hd r k, dM_comm d hd n k, dM_comm d hd n r]
  noncomm_ring

omit hd in
theorem covLow_eq (k a s r n : ι) : covLow d g k a s r n = (g * DF d g k r n) a s
    - ∑ m, christoffel d g m k r * riemannLow d g a s m n
    - ∑ m, christoffel d g m k n * riemannLow d g a s r m := by
  unfold covLow
  congr 2
  have : (fun a s => riemannLow d g a s r n) = (g * F d g r n : Matrix ι ι R) := by
    funext a s; exact riemannLow_eq d g a s r n
  rw [this, ← covM_apply d g hs]
  unfold covM DF
  rw [dM_mul, compatM d g hs hu]
  congr 1
  noncomm_ring

/-- **second Bianchi identity** -/
theorem bianchi2 (k a s r n : ι) :
    covLow d g k a s r n + covLow d g r a s n k + covLow d g n a s k r = 0 := by
  rw [covLow_eq d g hs hu, covLow_eq d g hs hu, covLow_eq d g hs hu]
  have h : (g * DF d g k r n) a s + (g * DF d g r n k) a s + (g * DF d g n k r) a s = 0 := by
    rw [← Matrix.add_apply, ← Matrix.add_apply, ← Matrix.mul_add, ← Matrix.mul_add,
      DF_cyclic d g hd k r n, Matrix.mul_zero, Matrix.zero_apply]
  have y := riemannLow_antisymm34 d g
  have c := christoffel_symm d g hs
  have e : ∀ u v w : ι, ∑ m, christoffel d g m u v * riemannLow d g a s m w
      = - ∑ m, christoffel d g m v u * riemannLow d g a s w m := by
    intro u v w
    rw [← Finset.sum_neg_distrib]
    exact Finset.sum_congr rfl fun m _ => by rw [y a s m w, c m u v]; ring
  rw [e k r n, e r n k, e n k r]
  linear_combination h

omit hd in
theorem cov_ricci (k s n : ι) :
    cov2 d g (ricci d g) k s n = tr2 g (fun a r => covLow d g k a s r n) := by
  have h := d_tr2 d g hs hu k (fun a r => riemannLow d g a s r n)
  have e0 : d k (ricci d g s n) = d k (tr2 g (fun a r => riemannLow d g a s r n)) := by
    rw [ricci_low d g hs hu]
  unfold cov2
  rw [e0, h]
  have e1 : ∑ m, christoffel d g m k s * ricci d g m n
      = tr2 g (fun a r => ∑ m, christoffel d g m k s * riemannLow d g a m r n) := by
    rw [tr2_sum]
    exact Finset.sum_congr rfl fun m _ => by rw [tr2_mul_left, ricci_low d g hs hu]
  have e2 : ∑ m, christoffel d g m k n * ricci d g s m
      = tr2 g (fun a r => ∑ m, christoffel d g m k n * riemannLow d g a s r m) := by
    rw [tr2_sum]
    exact Finset.sum_congr rfl fun m _ => by rw [tr2_mul_left, ricci_low d g hs hu]
  rw [e1, e2, ← tr2_sub, ← tr2_sub]
  congr 1
  funext a r
  unfold covLow cov2
  ring

/-- **contracted second Bianchi identity** `∇^a R_{ab} = ½ ∂_b R` -/
theorem div_ricci (b : ι) : 2 * div2 d g (ricci d g) b = d b (scalar d g) := by
  have h1 : div2 d g (ricci d g) b = tr2 g (fun k s => tr2 g (fun a r => covLow d g k a s r b)) := by
    unfold div2
    simp only [cov_ricci d g hs hu]
    rfl
  have h2 : div2 d g (ricci d g) b = tr2 g (fun k s => tr2 g (fun a r => covLow d g r a s b k)) := by
    rw [h1]
    simp only [tr2, Finset.mul_sum]
    -- rename (k, s, a, r) to (r, a, s, k)
    have lhs : ∀ f : ι → ι → ι → ι → R,
        ∑ k, ∑ s, ∑ a, ∑ r, f k s a r = ∑ r, ∑ a, ∑ s, ∑ k, f k s a r := by
      intro f
      calc ∑ k, ∑ s, ∑ a, ∑ r, f k s a r
          = ∑ k, ∑ s, ∑ r, ∑ a, f k s a r :=
            Finset.sum_congr rfl fun k _ => Finset.sum_congr rfl fun s _ => Finset.sum_comm
        _ = ∑ k, ∑ r, ∑ s, ∑ a, f k s a r := Finset.sum_congr rfl fun k _ => Finset.sum_comm
        _ = ∑ r, ∑ k, ∑ s, ∑ a, f k s a r := Finset.sum_comm
        _ = ∑ r, ∑ k, ∑ a, ∑ s, f k s a r :=
            Finset.sum_congr rfl fun r _ => Finset.sum_congr rfl fun k _ => Finset.sum_comm
        _ = ∑ r, ∑ a, ∑ k, ∑ s, f k s a r := Finset.sum_congr rfl fun r _ => Finset.sum_comm
        _ = ∑ r, ∑ a, ∑ s, ∑ k, f k s a r :=
            Finset.sum_congr rfl fun r _ => Finset.sum_congr rfl fun a _ => Finset.sum_comm
    rw [lhs]
    refine Finset.sum_congr rfl fun k _ => Finset.sum_congr rfl fun s _ =>
      Finset.sum_congr rfl fun a _ => Finset.sum_congr rfl fun r _ => ?_
    rw [covLow_antisymm12 d g hd hs hu, covLow_antisymm34, ginv_symm g hs r a, ginv_symm g hs s k]
    ring
  have h3 : d b (scalar d g) = - tr2 g (fun k s => tr2 g (fun a r => covLow d g b a s k r)) := by
    rw [scalar_eq, d_tr2 d g hs hu b (ricci d g)]
    simp only [cov_ricci d g hs hu, tr2]
    rw [← Finset.sum_neg_distrib, Finset.sum_comm]
    refine Finset.sum_congr rfl fun k _ => ?_
    rw [← Finset.sum_neg_distrib]
    refine Finset.sum_congr rfl fun s _ => ?_
    rw [ginv_symm g hs, ← mul_neg, ← Finset.sum_neg_distrib]
    congr 1
    refine Finset.sum_congr rfl fun a _ => ?_
    rw [← Finset.sum_neg_distrib]
    refine Finset.sum_congr rfl fun r _ => ?_
    rw [covLow_antisymm34]
    ring
  have h4 : tr2 g (fun k s => tr2 g (fun a r => covLow d g k a s r b))
      + tr2 g (fun k s => tr2 g (fun a r => covLow d g r a s b k))
      + tr2 g (fun k s => tr2 g (fun a r => covLow d g b a s k r)) = 0 := by
    rw [← tr2_add, ← tr2_add]
    simp only [tr2]
    refine Finset.sum_eq_zero fun k _ => Finset.sum_eq_zero fun s _ => ?_
    rw [← Finset.sum_add_distrib, ← Finset.sum_add_distrib]
    rw [Finset.sum_eq_zero, mul_zero]
    intro a _
    rw [← Finset.sum_add_distrib, ← Finset.sum_add_distrib]
    refine Finset.sum_eq_zero fun r _ => ?_
    rw [← mul_add, ← mul_add, bianchi2 d g hd hs hu, mul_zero]
  linear_combination h1 + h2 + h4 - h3

end Full

end Einpy.Geo
