import Verif.Curv.Geo2
import Mathlib.Tactic.FieldSimp
import Mathlib.Tactic.FinCases

/-!
# Einstein, Weyl and Schouten tensors
-/

set_option linter.unusedSectionVars false

namespace Einpy.Geo

variable {ι R : Type*} [Fintype ι] [DecidableEq ι] [CommRing R] [Algebra ℚ R]
variable (d : ι → Derivation ℚ R R) (g : Matrix ι ι R)

section Full
variable (hd : ∀ i j x, d i (d j x) = d j (d i x)) (hs : g.transpose = g) (hu : IsUnit g.det)
include hs hu

/-- contraction of the inverse metric with the metric: `Σ_{kl} g^{kl} X_k g_{lb} = X_b` -/
theorem tr2_contract (X : ι → R) (b : ι) : tr2 g (fun k l => X k * g l b) = X b := by
  have h : ∀ k, ∑ l, g⁻¹ k l * (X k * g l b) = X k * (1 : Matrix ι ι R) k b := by
    intro k
    rw [← Matrix.nonsing_inv_mul g hu, Matrix.mul_apply, Finset.mul_sum]
    exact Finset.sum_congr rfl fun l _ => by ring
  simp only [tr2, h, Matrix.one_apply, mul_ite, mul_one, mul_zero]
  simp

theorem tr2_contract' (X : ι → R) (b : ι) : tr2 g (fun k l => X l * g b k) = X b := by
  rw [← tr2_contract g hs hu X b]
  simp only [tr2]
  rw [Finset.sum_comm]
  exact Finset.sum_congr rfl fun k _ => Finset.sum_congr rfl fun l _ => by
    rw [ginv_symm g hs, g_symm g hs b l]

theorem tr2_const (x : R) : tr2 g (fun k l => x * g k l) = (Fintype.card ι : ℚ) • x := by
  rw [tr2_mul_left g x (fun k l => g k l), show tr2 g (fun k l => g k l) = _ from tr2_g g hu hs,
    Algebra.smul_def, map_natCast, mul_comm]

include hd

theorem einstein_symm (a b : ι) : einstein d g a b = einstein d g b a := by
  unfold einstein
  rw [ricci_symm d g hd hs hu, g_symm g hs a b]

omit hd in
theorem cov2_scalar_g (f : R) (k a b : ι) :
    cov2 d g (fun a b => f * g a b) k a b = d k f * g a b := by
  have h := cov2_g d g hs hu k a b
  unfold cov2 at h ⊢
  rw [Derivation.leibniz, smul_eq_mul, smul_eq_mul]
  have e1 : ∀ x : ι → R, ∑ m, x m * (f * g m b) = f * ∑ m, x m * g m b := by
    intro x; rw [Finset.mul_sum]; exact Finset.sum_congr rfl fun m _ => by ring
  have e2 : ∀ x : ι → R, ∑ m, x m * (f * g a m) = f * ∑ m, x m * g a m := by
    intro x; rw [Finset.mul_sum]; exact Finset.sum_congr rfl fun m _ => by ring
  simp only [e1, e2]
  linear_combination f * h

omit hs hu hd in
theorem cov2_sub (S T : ι → ι → R) (k a b : ι) :
    cov2 d g (fun a b => S a b - T a b) k a b = cov2 d g S k a b - cov2 d g T k a b := by
  unfold cov2
  simp only [map_sub, mul_sub, Finset.sum_sub_distrib]
  ring

omit hs hu hd in
theorem cov2_smul (c : ℚ) (T : ι → ι → R) (k a b : ι) :
    cov2 d g (fun a b => c • T a b) k a b = c • cov2 d g T k a b := by
  unfold cov2
  simp only [Derivation.map_smul, mul_smul_comm, ← Finset.smul_sum, ← smul_sub]

omit hs hu hd in
theorem div2_sub (S T : ι → ι → R) (b : ι) :
    div2 d g (fun a b => S a b - T a b) b = div2 d g S b - div2 d g T b := by
  unfold div2
  simp only [cov2_sub, mul_sub, Finset.sum_sub_distrib]

omit hs hu hd in
theorem div2_smul (c : ℚ) (T : ι → ι → R) (b : ι) :
    div2 d g (fun a b => c • T a b) b = c • div2 d g T b := by
  unfold div2
  simp only [cov2_smul, mul_smul_comm, ← Finset.smul_sum]

omit hd in
theorem div2_scalar_g (f : R) (b : ι) : div2 d g (fun a b => f * g a b) b = d b f := by
  unfold div2
  simp only [cov2_scalar_g d g hs hu]
  exact tr2_contract g hs hu (fun k => d k f) b

/-- **the Einstein tensor is divergence free** -/
theorem div_einstein (b : ι) : div2 d g (einstein d g) b = 0 := by
  have : einstein d g = fun a b => ricci d g a b - ((2 : ℚ)⁻¹) • (scalar d g * g a b) := rfl
  rw [this, div2_sub, div2_smul, div2_scalar_g d g hs hu, ← div_ricci d g hd hs hu]
  show _ - half (2 * div2 d g (ricci d g) b) = 0
  rw [show half (2 * div2 d g (ricci d g) b) = 2 * half (div2 d g (ricci d g) b) by
    unfold half; rw [mul_smul_comm], two_half]
  exact sub_self _

/-! ## Weyl -/

theorem weyl_antisymm12 (i k l m : ι) : weyl d g i k l m = - weyl d g k i l m := by
  unfold weyl
  rw [riemannLow_antisymm12 d g hd hs hu]
  simp only [Algebra.smul_def]
  ring

omit hd hs hu in
theorem weyl_antisymm34 (i k l m : ι) : weyl d g i k l m = - weyl d g i k m l := by
  unfold weyl
  rw [riemannLow_antisymm34 d g]
  simp only [Algebra.smul_def]
  ring

theorem weyl_bianchi (i k l m : ι) : weyl d g i k l m + weyl d g i l m k + weyl d g i m k l = 0 := by
  have b := riemannLow_bianchi1 d g hs i k l m
  have r := ricci_symm d g hd hs hu
  have s := g_symm g hs
  have b' : riemannLow d g i k l m = - riemannLow d g i l m k - riemannLow d g i m k l := by
    linear_combination b
  unfold weyl
  rw [b', r l k, r m k, r m l, s l k, s m k, s m l]
  simp only [Algebra.smul_def]
  ring

theorem weyl_pair (i k l m : ι) : weyl d g i k l m = weyl d g l m i k :=
  pair_of_symm _ (weyl_antisymm12 d g hd hs hu) (weyl_antisymm34 d g) (weyl_bianchi d g hd hs hu) i k l m

omit hs hu hd in
theorem tr2_smul (c : ℚ) (T : ι → ι → R) : tr2 g (fun a b => c • T a b) = c • tr2 g T := by
  simp only [tr2, mul_smul_comm, ← Finset.smul_sum]

/-- **the Weyl tensor is trace free** (first and third index) in dimension at least 3 -/
theorem weyl_trace13 (hn : 3 ≤ Fintype.card ι) (k m : ι) :
    tr2 g (fun i l => weyl d g i k l m) = 0 := by
  have s := g_symm g hs
  have r := ricci_symm d g hd hs hu
  simp only [weyl]
  rw [tr2_add, tr2_add, tr2_smul, tr2_smul, tr2_mul_left, tr2_sub, tr2_sub, tr2_add, tr2_sub]
  have t1 : tr2 g (fun i l => ricci d g i m * g k l) = ricci d g k m := by
    simp only [s k]
    exact tr2_contract g hs hu (fun i => ricci d g i m) k
  have t2 : tr2 g (fun i l => ricci d g i l * g k m) = scalar d g * g k m := by
    simp only [mul_comm (ricci d g _ _)]
    rw [tr2_mul_left, mul_comm]; rfl
  have t3 : tr2 g (fun i l => ricci d g k l * g i m) = ricci d g k m := by
    simp only [s _ m]
    exact tr2_contract' g hs hu (fun l => ricci d g k l) m
  have t4 : tr2 g (fun i l => ricci d g k m * g i l) = (Fintype.card ι : ℚ) • ricci d g k m :=
    tr2_const g hs hu _
  have t5 : tr2 g (fun i l => g i l * g k m) = (Fintype.card ι : ℚ) • g k m := by
    simp only [mul_comm _ (g k m)]
    exact tr2_const g hs hu _
  have t6 : tr2 g (fun i l => g i m * g k l) = g k m := by
    have := tr2_contract g hs hu (fun i => g i m) k
    rw [← this]
    congr 1
    funext i l
    rw [s k l]
  rw [t1, t2, t3, t4, t5, t6, ← ricci_low d g hs hu]
  have h3 : (3 : ℚ) ≤ (Fintype.card ι : ℚ) := by exact_mod_cast hn
  have h2 : (Fintype.card ι : ℚ) - 2 ≠ 0 := by linarith
  have h1 : (Fintype.card ι : ℚ) - 1 ≠ 0 := by linarith
  generalize (Fintype.card ι : ℚ) = n at *
  rw [show scalar d g * (n • g k m - g k m) = n • (scalar d g * g k m) - scalar d g * g k m by
    rw [mul_sub, mul_smul_comm]]
  match_scalars <;> field_simp <;> ring

/-! ## Schouten -/

theorem schouten_symm (a b : ι) : schouten d g a b = schouten d g b a := by
  unfold schouten
  rw [ricci_symm d g hd hs hu, g_symm g hs a b]

omit hd in
theorem schouten_trace (hn : 3 ≤ Fintype.card ι) :
    tr2 g (schouten d g) = ((2 : ℚ) * ((Fintype.card ι : ℚ) - 1))⁻¹ • scalar d g := by
  have h : schouten d g = fun a b => ((Fintype.card ι : ℚ) - 2)⁻¹ • (ricci d g a b
      - (2 * ((Fintype.card ι : ℚ) - 1))⁻¹ • (scalar d g * g a b)) := rfl
  rw [h, tr2_smul, tr2_sub, tr2_smul, tr2_const g hs hu, ← scalar_eq]
  have h3 : (3 : ℚ) ≤ (Fintype.card ι : ℚ) := by exact_mod_cast hn
  have h2 : (Fintype.card ι : ℚ) - 2 ≠ 0 := by linarith
  have h1 : (Fintype.card ι : ℚ) - 1 ≠ 0 := by linarith
  generalize (Fintype.card ι : ℚ) = n at *
  match_scalars
  field_simp
  ring

omit hs hu hd in
/-- **Ricci decomposition** -/
theorem ricci_decomposition (i k l m : ι) :
    riemannLow d g i k l m = weyl d g i k l m + kulkarniNomizu (schouten d g) g i k l m := by
  simp only [weyl, schouten, kulkarniNomizu]
  generalize (Fintype.card ι : ℚ) = n
  have h2 : algebraMap ℚ R (2⁻¹) * 2 = 1 := by
    rw [← map_ofNat (algebraMap ℚ R) 2, ← map_mul]; norm_num
  simp only [mul_inv, Algebra.smul_def, map_mul]
  linear_combination (algebraMap ℚ R (n - 2)⁻¹ * algebraMap ℚ R (n - 1)⁻¹ * scalar d g *
    (g i l * g k m - g i m * g k l)) * h2

end Full

/-! ## dimension 3 -/

section Three
variable (d : Fin 3 → Derivation ℚ R R) (g : Matrix (Fin 3) (Fin 3) R)

omit [Algebra ℚ R] in
/-- An antisymmetric-in-pairs, pair-symmetric tensor in three dimensions is given by six components. -/
theorem six_components (T : Fin 3 → Fin 3 → Fin 3 → Fin 3 → R)
    (x : ∀ a s r n, T a s r n = - T s a r n) (y : ∀ a s r n, T a s r n = - T a s n r)
    (x0 : ∀ a r n, T a a r n = 0) (y0 : ∀ a s r, T a s r r = 0)
    (p : ∀ a s r n, T a s r n = T r n a s)
    (h1 : T 0 1 0 1 = 0) (h2 : T 0 1 0 2 = 0) (h3 : T 0 1 1 2 = 0) (h4 : T 0 2 0 2 = 0)
    (h5 : T 0 2 1 2 = 0) (h6 : T 1 2 1 2 = 0) (a s r n : Fin 3) : T a s r n = 0 := by
  have q : ∀ r n, T 0 1 r n = 0 ∧ T 0 2 r n = 0 ∧ T 1 2 r n = 0 := by
    intro r n
    have e1 : T 0 2 0 1 = 0 := by rw [p]; exact h2
    have e2 : T 1 2 0 1 = 0 := by rw [p]; exact h3
    have e3 : T 1 2 0 2 = 0 := by rw [p]; exact h5
    fin_cases r <;> fin_cases n <;>
      simp only [Fin.zero_eta, Fin.mk_one, Fin.reduceFinMk, y0, true_and, and_self] <;>
      refine ⟨?_, ?_, ?_⟩ <;>
      first
        | assumption
        | (rw [y, neg_eq_zero]; assumption)
  fin_cases a <;> fin_cases s <;>
    simp only [Fin.zero_eta, Fin.mk_one, Fin.reduceFinMk] <;>
    first
      | exact x0 _ _ _
      | exact (q r n).1
      | exact (q r n).2.1
      | exact (q r n).2.2
      | (rw [x, neg_eq_zero]; first | exact (q r n).1 | exact (q r n).2.1 | exact (q r n).2.2)

theorem eq_zero_of_two_mul {x : R} (h : 2 * x = 0) : x = 0 := by
  rw [← two_half x, show 2 * half x = half (2 * x) by unfold half; rw [mul_smul_comm], h]
  unfold half; simp

theorem eq_zero_of_eq_neg {x : R} (h : x = -x) : x = 0 :=
  eq_zero_of_two_mul (by linear_combination h)

/-- A trace-free tensor with the symmetries of the Riemann tensor vanishes in three dimensions. -/
theorem three_trace_free (h : Matrix (Fin 3) (Fin 3) R) (hh : h.transpose = h) (hu : IsUnit h.det)
    (W : Fin 3 → Fin 3 → Fin 3 → Fin 3 → R)
    (x : ∀ a s r n, W a s r n = - W s a r n) (y : ∀ a s r n, W a s r n = - W a s n r)
    (p : ∀ a s r n, W a s r n = W r n a s)
    (T : ∀ k m, ∑ i, ∑ l, h i l * W i k l m = 0) (a s r n : Fin 3) : W a s r n = 0 := by
  have x0 : ∀ a r n, W a a r n = 0 := fun a r n => eq_zero_of_eq_neg (x a a r n)
  have y0 : ∀ a s r, W a s r r = 0 := fun a s r => eq_zero_of_eq_neg (y a s r r)
  have a10 : ∀ r n, W 1 0 r n = - W 0 1 r n := fun r n => x 1 0 r n
  have a20 : ∀ r n, W 2 0 r n = - W 0 2 r n := fun r n => x 2 0 r n
  have a21 : ∀ r n, W 2 1 r n = - W 1 2 r n := fun r n => x 2 1 r n
  have b10 : ∀ r n, W r n 1 0 = - W r n 0 1 := fun r n => y r n 1 0
  have b20 : ∀ r n, W r n 2 0 = - W r n 0 2 := fun r n => y r n 2 0
  have b21 : ∀ r n, W r n 2 1 = - W r n 1 2 := fun r n => y r n 2 1
  have p1 : W 0 2 0 1 = W 0 1 0 2 := p _ _ _ _
  have p2 : W 1 2 0 1 = W 0 1 1 2 := p _ _ _ _
  have p3 : W 1 2 0 2 = W 0 2 1 2 := p _ _ _ _
  have hsym : ∀ i j, h i j = h j i := g_symm h hh
  have s10 : h 1 0 = h 0 1 := hsym _ _
  have s20 : h 2 0 = h 0 2 := hsym _ _
  have s21 : h 2 1 = h 1 2 := hsym _ _
  have T00 := T 0 0
  have T01 := T 0 1
  have T02 := T 0 2
  have T11 := T 1 1
  have T12 := T 1 2
  have T22 := T 2 2
  simp only [Fin.sum_univ_three, a10, a20, a21, b10, b20, b21, p1, p2, p3, x0, y0, s10, s20, s21]
    at T00 T01 T02 T11 T12 T22
  have hdet := Matrix.det_fin_three h
  simp only [s10, s20, s21] at hdet
  have kill : ∀ z : R, 2 * (h.det * z) = 0 → z = 0 := by
    intro z hz
    have := eq_zero_of_two_mul hz
    obtain ⟨u, hu'⟩ := hu
    rw [← hu'] at this
    exact (Units.mul_right_eq_zero u).mp this
  generalize h 0 0 = A at *
  generalize h 0 1 = B at *
  generalize h 0 2 = C at *
  generalize h 1 1 = D at *
  generalize h 1 2 = E at *
  generalize h 2 2 = G at *
  refine six_components W x y x0 y0 p (kill _ ?_) (kill _ ?_) (kill _ ?_) (kill _ ?_) (kill _ ?_)
    (kill _ ?_) a s r n
  -- `2 det(h) E^{ij} = tr(hX) h^{ij} - 2 (h X h)^{ij}`
  · rw [hdet]
    linear_combination (A * G - 2 * C * C) * T00 + (2 * B * G - 4 * C * E) * T01
      + (2 * C * G - 4 * C * G) * T02 + (D * G - 2 * E * E) * T11
      + (2 * E * G - 4 * E * G) * T12 + (G * G - 2 * G * G) * T22
  · rw [hdet]
    linear_combination -((A * E - 2 * C * B) * T00 + (2 * B * E - 2 * (C * D + E * B)) * T01
      + (2 * C * E - 2 * (C * E + G * B)) * T02 + (D * E - 2 * E * D) * T11
      + (2 * E * E - 2 * (E * E + G * D)) * T12 + (G * E - 2 * G * E) * T22)
  · rw [hdet]
    linear_combination (A * C - 2 * C * A) * T00 + (2 * B * C - 2 * (C * B + E * A)) * T01
      + (2 * C * C - 2 * (C * C + G * A)) * T02 + (D * C - 2 * E * B) * T11
      + (2 * E * C - 2 * (E * C + G * B)) * T12 + (G * C - 2 * G * C) * T22
  · rw [hdet]
    linear_combination (A * D - 2 * B * B) * T00 + (2 * B * D - 4 * B * D) * T01
      + (2 * C * D - 4 * B * E) * T02 + (D * D - 2 * D * D) * T11
      + (2 * E * D - 4 * D * E) * T12 + (G * D - 2 * E * E) * T22
  · rw [hdet]
    linear_combination -((A * B - 2 * B * A) * T00 + (2 * B * B - 2 * (B * B + D * A)) * T01
      + (2 * C * B - 2 * (B * C + E * A)) * T02 + (D * B - 2 * D * B) * T11
      + (2 * E * B - 2 * (D * C + E * B)) * T12 + (G * B - 2 * E * C) * T22)
  · rw [hdet]
    linear_combination (A * A - 2 * A * A) * T00 + (2 * B * A - 4 * A * B) * T01
      + (2 * C * A - 4 * A * C) * T02 + (D * A - 2 * B * B) * T11
      + (2 * E * A - 4 * B * C) * T12 + (G * A - 2 * C * C) * T22

/-- **in three dimensions the Weyl tensor vanishes identically** -/
theorem weyl_three (hd : ∀ i j x, d i (d j x) = d j (d i x)) (hs : g.transpose = g)
    (hu : IsUnit g.det) (i k l m : Fin 3) : weyl d g i k l m = 0 :=
  three_trace_free g⁻¹ (by rw [Matrix.transpose_nonsing_inv, hs])
    (by rw [Matrix.det_nonsing_inv]; exact hu.ringInverse)
    (weyl d g) (weyl_antisymm12 d g hd hs hu) (weyl_antisymm34 d g) (weyl_pair d g hd hs hu)
    (fun k m => weyl_trace13 d g hd hs hu (by simp) k m) i k l m

end Three

end Einpy.Geo
