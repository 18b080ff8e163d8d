import Verif.Curv.Covariance

/-!
# Conformal rescaling of the metric
-/

set_option linter.unusedSectionVars false

namespace Einpy.Geo
open Matrix Finset

variable {ι R : Type*} [Fintype ι] [DecidableEq ι] [CommRing R] [Algebra ℚ R]

section Conf
variable (d : ι → Derivation ℚ R R) (g : Matrix ι ι R) (w : ι → R)

/-- the vector `w^t = Σ g^tn w_n` -/
noncomputable def wUp (t : ι) : R := ∑ n, g⁻¹ t n * w n

/-- `w_a w^a` -/
noncomputable def wSq : R := ∑ q, w q * wUp g w q

/-- difference of the connections of `u g` and `g` -/
noncomputable def confM (c : ι) : Matrix ι ι R := Matrix.of fun t p =>
  (1 : Matrix ι ι R) t p * w c + (1 : Matrix ι ι R) t c * w p - wUp g w t * g c p

/-- covariant derivative of a covector -/
noncomputable def cov1 (r p : ι) : R := d r (w p) - ∑ m, christoffel d g m r p * w m

/-- `∇_a w_b − w_a w_b + ½ |w|² g_ab` -/
noncomputable def confB (a b : ι) : R := cov1 d g w a b - w a * w b + half (wSq g w * g a b)

variable (hs : g.transpose = g) (hu : IsUnit g.det)
include hu

theorem low_wUp (i : ι) : ∑ t, g i t * wUp g w t = w i := by
  have h1 : (g *ᵥ (g⁻¹ *ᵥ w)) i = w i := by
    rw [Matrix.mulVec_mulVec, Matrix.mul_nonsing_inv g hu, Matrix.one_mulVec]
  exact h1

theorem low_confM (c i p : ι) : (g * confM g w c) i p = w c * g i p + g i c * w p - w i * g c p := by
  have e : ∀ t, g i t * confM g w c t p = (1 : Matrix ι ι R) t p * (w c * g i t) + (1 : Matrix ι ι R) t c * (w p * g i t)
      - (g i t * wUp g w t) * g c p := by
    intro t
    simp only [confM, Matrix.of_apply]
    ring
  rw [Matrix.mul_apply, sum_congr rfl fun t _ => e t, sum_sub_distrib, sum_add_distrib, ← sum_mul, low_wUp g w hu]
  simp only [Matrix.one_apply, ite_mul, one_mul, zero_mul, sum_ite_eq', mem_univ, if_true]
  rw [show g i c * w p = w p * g i c from mul_comm _ _]

include hs

/-- the connection of a conformally rescaled metric -/
theorem conf_connection (u : R) (hun : IsUnit u) (hw : ∀ a, d a u = 2 * (u * w a)) (c : ι) :
    A d (u • g) c = A d g c + confM g w c := by
  have hsu : (u • g).transpose = u • g := by rw [Matrix.transpose_smul, hs]
  have huu : IsUnit (u • g).det := by rw [Matrix.det_smul]; exact (hun.pow _).mul hu
  symm
  refine levi_civita_unique d (u • g) hsu huu (fun c => A d g c + confM g w c) ?_ ?_ c
  · intro c t p
    simp only [Matrix.add_apply, A, confM, Matrix.of_apply]
    rw [christoffel_symm d g hs t p c, g_symm g hs c p]
    ring
  · intro c
    have e1 : dM d c (u • g) = d c u • g + u • dM d c g := by
      ext i j
      simp only [dM_apply, Matrix.smul_apply, smul_eq_mul, Matrix.add_apply, Derivation.leibniz]
      ring
    have e2 : (confM g w c).transpose * g + g * confM g w c = (2 * w c) • g := by
      have e3 : (confM g w c).transpose * g = (g * confM g w c).transpose := by rw [Matrix.transpose_mul, hs]
      rw [e3]
      ext i p
      rw [Matrix.add_apply, Matrix.transpose_apply, low_confM g w hu, low_confM g w hu, Matrix.smul_apply, smul_eq_mul,
        g_symm g hs p i, g_symm g hs p c, g_symm g hs i c]
      ring
    rw [e1, compatM d g hs hu, hw]
    have e4 : (2 * (u * w c)) • g = u • ((confM g w c).transpose * g + g * confM g w c) := by
      rw [e2, smul_smul]; congr 1; ring
    rw [e4, ← smul_add]
    simp only [Matrix.transpose_add, Matrix.mul_smul, Matrix.smul_mul, ← smul_add]
    congr 1
    noncomm_ring

theorem cov1_symm (hc : ∀ a b, d a (w b) = d b (w a)) (a b : ι) : cov1 d g w a b = cov1 d g w b a := by
  unfold cov1
  rw [hc a b]
  congr 1
  exact sum_congr rfl fun m _ => by rw [christoffel_symm d g hs m a b]

/-- gauge covariant derivative of the difference of connections, lowered -/
theorem low_cov_confM (r n i p : ι) :
    (g * (dM d r (confM g w n) + A d g r * confM g w n - confM g w n * A d g r)) i p =
      d r (w n) * g i p + (∑ m, christoffel d g m r n * g i m) * w p + g i n * cov1 d g w r p
        - w i * (∑ m, christoffel d g m r n * g m p) - cov1 d g w r i * g n p := by
  have e1 : g * (dM d r (confM g w n) + A d g r * confM g w n - confM g w n * A d g r) = covM d g r (g * confM g w n) := by
    unfold covM
    rw [dM_mul, compatM d g hs hu]
    noncomm_ring
  have e2 : (g * confM g w n : Matrix ι ι R) = fun i p => w n * g i p + g i n * w p - w i * g n p := by
    funext i p; exact low_confM g w hu n i p
  rw [e1, covM_apply d g hs, e2]
  have m1 := metric_compat d g hs hu r i p
  have m2 := metric_compat d g hs hu r i n
  have m3 := metric_compat d g hs hu r n p
  unfold cov2 cov1
  simp only [map_add, map_sub, Derivation.leibniz, smul_eq_mul, mul_add, mul_sub, sum_add_distrib, sum_sub_distrib]
  have s1 : ∑ m, christoffel d g m r i * (w n * g m p) = w n * ∑ m, christoffel d g m r i * g m p := by
    rw [mul_sum]; exact sum_congr rfl fun m _ => by ring
  have s2 : ∑ m, christoffel d g m r i * (g m n * w p) = (∑ m, christoffel d g m r i * g m n) * w p := by
    rw [sum_mul]; exact sum_congr rfl fun m _ => by ring
  have s3 : ∑ m, christoffel d g m r i * (w m * g n p) = (∑ m, christoffel d g m r i * w m) * g n p := by
    rw [sum_mul]; exact sum_congr rfl fun m _ => by ring
  have s4 : ∑ m, christoffel d g m r p * (w n * g i m) = w n * ∑ m, christoffel d g m r p * g i m := by
    rw [mul_sum]; exact sum_congr rfl fun m _ => by ring
  have s5 : ∑ m, christoffel d g m r p * (g i n * w m) = g i n * ∑ m, christoffel d g m r p * w m := by
    rw [mul_sum]; exact sum_congr rfl fun m _ => by ring
  have s6 : ∑ m, christoffel d g m r p * (w i * g n m) = w i * ∑ m, christoffel d g m r p * g n m := by
    rw [mul_sum]; exact sum_congr rfl fun m _ => by ring
  rw [s1, s2, s3, s4, s5, s6, m1, m2, m3]
  ring

/-- commutator of the differences of connections, lowered -/
theorem low_comm_confM (r n i p : ι) :
    (g * (confM g w r * confM g w n - confM g w n * confM g w r)) i p =
      g i r * w n * w p - g i n * w r * w p - wSq g w * (g i r * g n p - g i n * g r p)
        + w i * w r * g n p - w i * w n * g r p := by
  have key : ∀ r n : ι, (g * (confM g w r * confM g w n)) i p =
      w r * (w n * g i p + g i n * w p - w i * g n p) + g i r * (2 * (w n * w p) - wSq g w * g n p)
        - w i * (w n * g r p + g r n * w p - w r * g n p) := by
    intro r n
    rw [← Matrix.mul_assoc, Matrix.mul_apply]
    simp only [low_confM g w hu]
    have a1 : ∑ q, w q * confM g w n q p = 2 * (w n * w p) - wSq g w * g n p := by
      have : ∀ q, w q * confM g w n q p = (1 : Matrix ι ι R) q p * (w n * w q) + (1 : Matrix ι ι R) q n * (w p * w q)
          - (w q * wUp g w q) * g n p := by
        intro q; simp only [confM, Matrix.of_apply]; ring
      rw [sum_congr rfl fun q _ => this q, sum_sub_distrib, sum_add_distrib, ← sum_mul]
      simp only [Matrix.one_apply, ite_mul, one_mul, zero_mul, sum_ite_eq', mem_univ, if_true, wSq]
      ring
    have a2 : ∀ i, ∑ q, g i q * confM g w n q p = w n * g i p + g i n * w p - w i * g n p := fun i => by
      rw [← low_confM g w hu n i p, Matrix.mul_apply]
    calc ∑ q, (w r * g i q + g i r * w q - w i * g r q) * confM g w n q p
        = w r * ∑ q, g i q * confM g w n q p + g i r * ∑ q, w q * confM g w n q p - w i * ∑ q, g r q * confM g w n q p := by
          simp only [mul_sum, ← sum_add_distrib, ← sum_sub_distrib]
          exact sum_congr rfl fun q _ => by ring
      _ = _ := by rw [a1, a2, a2]
  rw [Matrix.mul_sub, Matrix.sub_apply, key, key, g_symm g hs n r]
  ring

/-- the lowered Riemann tensor of `u g` -/
theorem conf_riemannLow (u : R) (hun : IsUnit u) (hw : ∀ a, d a u = 2 * (u * w a)) (hc : ∀ a b, d a (w b) = d b (w a))
    (i p r n : ι) : riemannLow d (u • g) i p r n =
      u * (riemannLow d g i p r n - kulkarniNomizu (confB d g w) g i p r n) := by
  have hF : F d (u • g) r n = F d g r n
      + (dM d r (confM g w n) + A d g r * confM g w n - confM g w n * A d g r)
      - (dM d n (confM g w r) + A d g n * confM g w r - confM g w r * A d g n)
      + (confM g w r * confM g w n - confM g w n * confM g w r) := by
    rw [F_eq, F_eq, conf_connection d g w hs hu u hun hw, conf_connection d g w hs hu u hun hw, dM_add, dM_add]
    noncomm_ring
  have hL : (g * F d (u • g) r n) i p = riemannLow d g i p r n - kulkarniNomizu (confB d g w) g i p r n := by
    rw [hF, Matrix.mul_add, Matrix.mul_sub, Matrix.mul_add, Matrix.add_apply, Matrix.sub_apply, Matrix.add_apply,
      low_cov_confM d g w hs hu, low_cov_confM d g w hs hu, low_comm_confM g w hs hu, ← riemannLow_eq]
    simp only [kulkarniNomizu, confB]
    rw [hc n r, cov1_symm d g w hs hu hc i r, cov1_symm d g w hs hu hc i n, cov1_symm d g w hs hu hc p n,
      cov1_symm d g w hs hu hc p r, g_symm g hs p n, g_symm g hs p r]
    have e1 : ∑ m, christoffel d g m n r * g i m = ∑ m, christoffel d g m r n * g i m :=
      sum_congr rfl fun m _ => by rw [christoffel_symm d g hs m n r]
    have e2 : ∑ m, christoffel d g m n r * g m p = ∑ m, christoffel d g m r n * g m p :=
      sum_congr rfl fun m _ => by rw [christoffel_symm d g hs m n r]
    have t := two_half (1 : R)
    have hh : ∀ y : R, half y = half 1 * y := fun y => by rw [half, half, smul_mul_assoc, one_mul]
    rw [e1, e2, hh (wSq g w * g i r), hh (wSq g w * g n p), hh (wSq g w * g i n), hh (wSq g w * g r p)]
    linear_combination (wSq g w * (g i r * g n p - g i n * g r p)) * t
  rw [riemannLow_eq, Matrix.smul_mul, Matrix.smul_apply, smul_eq_mul, hL]

theorem conf_inv (u v : R) (huv : u * v = 1) : (u • g)⁻¹ = v • g⁻¹ := by
  refine Matrix.inv_eq_right_inv ?_
  rw [Matrix.smul_mul, Matrix.mul_smul, smul_smul, huv, one_smul, Matrix.mul_nonsing_inv g hu]

theorem conf_tr2 (u v : R) (huv : u * v = 1) (T : ι → ι → R) : tr2 (u • g) T = v * tr2 g T := by
  unfold tr2
  rw [conf_inv g hs hu u v huv]
  simp only [mul_sum, Matrix.smul_apply, smul_eq_mul, mul_assoc]

/-- trace of a Kulkarni–Nomizu product with the metric -/
theorem tr2_kn (B : ι → ι → R) (k m : ι) : tr2 g (fun i l => kulkarniNomizu B g i k l m) =
    ((Fintype.card ι : ℚ) - 2) • B k m + tr2 g B * g k m := by
  have s := g_symm g hs
  simp only [kulkarniNomizu]
  rw [tr2_sub, tr2_sub, tr2_add]
  have t1 : tr2 g (fun i l => B i m * g k l) = B k m := by
    simp only [s k]
    exact tr2_contract g hs hu (fun i => B i m) k
  have t2 : tr2 g (fun i l => B i l * g k m) = tr2 g B * g k m := by
    simp only [mul_comm (B _ _)]
    rw [tr2_mul_left, mul_comm]
  have t3 : tr2 g (fun i l => B k l * g i m) = B k m := by
    simp only [s _ m]
    exact tr2_contract' g hs hu (fun l => B k l) m
  have t4 : tr2 g (fun i l => B k m * g i l) = (Fintype.card ι : ℚ) • B k m := tr2_const g hs hu _
  rw [t1, t2, t3, t4]
  module

variable (u : R) (hun : IsUnit u) (hw : ∀ a, d a u = 2 * (u * w a)) (hc : ∀ a b, d a (w b) = d b (w a))
include hun hw hc

theorem conf_ricci (a b : ι) : ricci d (u • g) a b =
    ricci d g a b - (((Fintype.card ι : ℚ) - 2) • confB d g w a b + tr2 g (confB d g w) * g a b) := by
  have hsu : (u • g).transpose = u • g := by rw [Matrix.transpose_smul, hs]
  have huu : IsUnit (u • g).det := by rw [Matrix.det_smul]; exact (hun.pow _).mul hu
  obtain ⟨v, huv⟩ := hun.exists_right_inv
  rw [ricci_low d _ hsu huu, conf_tr2 g hs hu u v huv]
  simp only [conf_riemannLow d g w hs hu u hun hw hc]
  rw [tr2_mul_left, tr2_sub, ← ricci_low d g hs hu, tr2_kn g hs hu, ← mul_assoc, mul_comm v u, huv, one_mul]

theorem conf_scalar (v : R) (huv : u * v = 1) : scalar d (u • g) =
    v * (scalar d g - (2 * ((Fintype.card ι : ℚ) - 1)) • tr2 g (confB d g w)) := by
  rw [scalar_eq, conf_tr2 g hs hu u v huv]
  have : ricci d (u • g) = fun a b =>
      ricci d g a b - (((Fintype.card ι : ℚ) - 2) • confB d g w a b + tr2 g (confB d g w) * g a b) := by
    funext a b; exact conf_ricci d g w hs hu u hun hw hc a b
  rw [this, tr2_sub, tr2_add, tr2_smul, tr2_const g hs hu, ← scalar_eq]
  congr 1
  module

theorem conf_weyl (hn : 3 ≤ Fintype.card ι) (i k l m : ι) : weyl d (u • g) i k l m = u * weyl d g i k l m := by
  obtain ⟨v, huv⟩ := hun.exists_right_inv
  have h3 : (3 : ℚ) ≤ (Fintype.card ι : ℚ) := by exact_mod_cast hn
  have h2 : (Fintype.card ι : ℚ) - 2 ≠ 0 := by linarith
  have h1 : (Fintype.card ι : ℚ) - 1 ≠ 0 := by linarith
  simp only [weyl]
  rw [conf_scalar d g w hs hu u hun hw hc v huv]
  simp only [conf_ricci d g w hs hu u hun hw hc, conf_riemannLow d g w hs hu u hun hw hc, Matrix.smul_apply, smul_eq_mul]
  simp only [kulkarniNomizu]
  generalize tr2 g (confB d g w) = τ
  generalize (Fintype.card ι : ℚ) = n at *
  have e2 : algebraMap ℚ R (n - 2)⁻¹ * algebraMap ℚ R (n - 2) = 1 := by
    rw [← map_mul, inv_mul_cancel₀ h2, map_one]
  have e1 : algebraMap ℚ R (n - 1)⁻¹ * algebraMap ℚ R (n - 1) = 1 := by
    rw [← map_mul, inv_mul_cancel₀ h1, map_one]
  simp only [Algebra.smul_def, mul_inv, map_mul, map_ofNat]
  generalize algebraMap ℚ R (n - 2)⁻¹ = a2 at *
  generalize algebraMap ℚ R (n - 1)⁻¹ = a1 at *
  generalize algebraMap ℚ R (n - 2) = b2 at *
  generalize algebraMap ℚ R (n - 1) = b1 at *
  generalize confB d g w = B
  linear_combination (a1 * a2 * (scalar d g - 2 * b1 * τ) * u * (g i l * g k m - g i m * g k l)) * huv
    - (u * (B i m * g k l - B i l * g k m + B k l * g i m - B k m * g i l)) * e2
    - (2 * a2 * τ * u * (g i l * g k m - g i m * g k l)) * e1

theorem conf_schouten (hn : 3 ≤ Fintype.card ι) (a b : ι) : schouten d (u • g) a b = schouten d g a b - confB d g w a b := by
  obtain ⟨v, huv⟩ := hun.exists_right_inv
  have h3 : (3 : ℚ) ≤ (Fintype.card ι : ℚ) := by exact_mod_cast hn
  have h2 : (Fintype.card ι : ℚ) - 2 ≠ 0 := by linarith
  have h1 : (Fintype.card ι : ℚ) - 1 ≠ 0 := by linarith
  simp only [schouten]
  rw [conf_scalar d g w hs hu u hun hw hc v huv]
  simp only [conf_ricci d g w hs hu u hun hw hc, Matrix.smul_apply, smul_eq_mul]
  generalize tr2 g (confB d g w) = τ
  generalize (Fintype.card ι : ℚ) = n at *
  have e2 : algebraMap ℚ R (n - 2)⁻¹ * algebraMap ℚ R (n - 2) = 1 := by
    rw [← map_mul, inv_mul_cancel₀ h2, map_one]
  have e1 : algebraMap ℚ R (n - 1)⁻¹ * algebraMap ℚ R (n - 1) = 1 := by
    rw [← map_mul, inv_mul_cancel₀ h1, map_one]
  have e0 : algebraMap ℚ R (2)⁻¹ * 2 = 1 := by
    rw [← map_ofNat (algebraMap ℚ R) 2, ← map_mul]; norm_num
  simp only [Algebra.smul_def, mul_inv, map_mul, map_ofNat]
  generalize algebraMap ℚ R (n - 2)⁻¹ = a2 at *
  generalize algebraMap ℚ R (n - 1)⁻¹ = a1 at *
  generalize algebraMap ℚ R (n - 2) = b2 at *
  generalize algebraMap ℚ R (n - 1) = b1 at *
  generalize algebraMap ℚ R (2)⁻¹ = a0 at *
  generalize confB d g w = B
  linear_combination (-(a2 * a0 * a1 * (scalar d g - 2 * b1 * τ) * g a b)) * huv - (B a b) * e2
    + (a2 * τ * g a b) * e1 + (a2 * a1 * b1 * τ * g a b) * e0

end Conf
end Einpy.Geo
