import Verif.Curv.Conformal

/-!
# The Cotton tensor of a space with vanishing Weyl tensor vanishes in dimension four and more (used for C146)
-/

namespace Einpy.Geo
open Matrix Finset

variable {ι R : Type*} [Fintype ι] [DecidableEq ι] [CommRing R] [Algebra ℚ R]
variable (d : ι → Derivation ℚ R R) (g : Matrix ι ι R)

section
variable (hs : g.transpose = g) (hu : IsUnit g.det)
include hs hu

theorem covLow_kn (P : ι → ι → R) (hP : ∀ a s r n, riemannLow d g a s r n = kulkarniNomizu P g a s r n) (k a s r n : ι) :
    covLow d g k a s r n = kulkarniNomizu (fun a b => cov2 d g P k a b) g a s r n := by
  unfold covLow
  simp only [cov2, hP, kulkarniNomizu, map_add, map_sub, Derivation.leibniz, smul_eq_mul, metric_compat d g hs hu]
  have e1 : ∀ f : ι → R, ∑ m, f m * (P m r * g s n + P s n * g m r - P m n * g s r - P s r * g m n) =
      (∑ m, f m * P m r) * g s n + P s n * ∑ m, f m * g m r - (∑ m, f m * P m n) * g s r - P s r * ∑ m, f m * g m n := fun f => by
    simp only [sum_mul, mul_sum, ← sum_add_distrib, ← sum_sub_distrib]
    exact sum_congr rfl fun m _ => by ring
  have e2 : ∀ f : ι → R, ∑ m, f m * (P a r * g m n + P m n * g a r - P a n * g m r - P m r * g a n) =
      P a r * (∑ m, f m * g m n) + (∑ m, f m * P m n) * g a r - P a n * (∑ m, f m * g m r) - (∑ m, f m * P m r) * g a n := fun f => by
    simp only [sum_mul, mul_sum, ← sum_add_distrib, ← sum_sub_distrib]
    exact sum_congr rfl fun m _ => by ring
  have e3 : ∀ f : ι → R, ∑ m, f m * (P a m * g s n + P s n * g a m - P a n * g s m - P s m * g a n) =
      (∑ m, f m * P a m) * g s n + P s n * (∑ m, f m * g a m) - P a n * (∑ m, f m * g s m) - (∑ m, f m * P s m) * g a n := fun f => by
    simp only [sum_mul, mul_sum, ← sum_add_distrib, ← sum_sub_distrib]
    exact sum_congr rfl fun m _ => by ring
  have e4 : ∀ f : ι → R, ∑ m, f m * (P a r * g s m + P s m * g a r - P a m * g s r - P s r * g a m) =
      P a r * (∑ m, f m * g s m) + (∑ m, f m * P s m) * g a r - (∑ m, f m * P a m) * g s r - P s r * (∑ m, f m * g a m) := fun f => by
    simp only [sum_mul, mul_sum, ← sum_add_distrib, ← sum_sub_distrib]
    exact sum_congr rfl fun m _ => by ring
  rw [e1, e2, e3, e4]
  ring

omit d hs hu in
theorem tr2_neg (T : ι → ι → R) : tr2 g (fun a b => -T a b) = -tr2 g T := by
  have := tr2_mul_left g (-1) T
  simpa using this

omit d in
/-- the algebraic core -/
theorem cotton_core (hn : 4 ≤ Fintype.card ι) (p : ι → ι → ι → R) (hp : ∀ k a b, p k a b = p k b a)
    (h : ∀ k a s r n, kulkarniNomizu (p k) g a s r n + kulkarniNomizu (p r) g a s n k + kulkarniNomizu (p n) g a s k r = 0) (k n s : ι) : p k s n = p n s k := by
  obtain ⟨c, hc⟩ : ∃ c : ι → ι → ι → R, ∀ k n s, c k n s = p k s n - p n s k := ⟨_, fun _ _ _ => rfl⟩
  have hanti : ∀ k n s, c n k s = -c k n s := fun k n s => by simp only [hc]; ring
  set t : ι → R := fun k => tr2 g (fun a r => c r k a) with ht
  set N : ℚ := (Fintype.card ι : ℚ) with hN
  have hN4 : (4 : ℚ) ≤ N := by rw [hN]; exact_mod_cast hn
  have h1 : ∀ k n s, (N - 3) • c k n s = t k * g s n - t n * g s k := fun k n s => by
    have hE : tr2 g (fun a r => (((((c k n s * g a r + c r k s * g n a) + c n r s * g k a) - c k n a * g r s) - g s n * c r k a) - g s k * c n r a)) = 0 := by
      have : (fun a r => (((((c k n s * g a r + c r k s * g n a) + c n r s * g k a) - c k n a * g r s) - g s n * c r k a) - g s k * c n r a)) = fun a r => (0 : R) * c k n s := by
        funext a r
        have e := h k a s r n
        simp only [kulkarniNomizu] at e
        simp only [hc, g_symm g hs n a, g_symm g hs k a, g_symm g hs r s]
        rw [zero_mul, ← e, hp k a r, hp r a n, hp n a k, hp r s k, hp n s r, hp k s n, hp k a n, hp k s r, hp r a k, hp r s n, hp n a r, hp n s k]
        ring
      rw [this, tr2_mul_left, zero_mul]
    rw [tr2_sub, tr2_sub, tr2_sub, tr2_add, tr2_add, tr2_const g hs hu, tr2_contract' g hs hu (fun r => c r k s) n, tr2_contract' g hs hu (fun r => c n r s) k,
      tr2_contract g hs hu (fun a => c k n a) s, tr2_mul_left, tr2_mul_left] at hE
    have e2 : tr2 g (fun a r => c n r a) = -t n := by
      rw [ht, ← tr2_neg g]
      congr 1
      funext a r
      exact hanti r n a
    rw [e2, hanti k n s] at hE
    have e3 : tr2 g (fun a r => c r k a) = t k := rfl
    rw [e3] at hE
    rw [sub_smul, ofNat_smul_eq_nsmul ℚ 3]
    simp only [nsmul_eq_mul, Nat.cast_ofNat]
    linear_combination hE
  have h2 : ∀ k, t k = 0 := fun k => by
    have e := congrArg (tr2 g) (show (fun s n => (N - 3) • c k n s) = fun s n => t k * g s n - t n * g k s from by
      funext s n; rw [h1, g_symm g hs s k])
    rw [tr2_smul, tr2_sub, tr2_const g hs hu, tr2_contract' g hs hu t k] at e
    have e2 : tr2 g (fun s n => c k n s) = -t k := by
      rw [ht, ← tr2_neg g]
      congr 1
      funext a r
      exact hanti r k a
    rw [e2, ← hN] at e
    have e3 : (2 * N - 4) • t k = 0 := by
      have : (2 * N - 4) • t k = N • t k - t k - (N - 3) • (-t k) := by module
      rw [this, e, sub_self]
    have hne : (2 * N - 4 : ℚ) ≠ 0 := by linarith
    calc t k = (2 * N - 4)⁻¹ • ((2 * N - 4) • t k) := by rw [smul_smul, inv_mul_cancel₀ hne, one_smul]
      _ = 0 := by rw [e3, smul_zero]
  have h3 := h1 k n s
  rw [h2, h2, zero_mul, zero_mul, sub_self] at h3
  have hne : (N - 3 : ℚ) ≠ 0 := by linarith
  have : c k n s = 0 := by
    calc c k n s = (N - 3)⁻¹ • ((N - 3) • c k n s) := by rw [smul_smul, inv_mul_cancel₀ hne, one_smul]
      _ = 0 := by rw [h3, smul_zero]
  rw [hc] at this
  exact sub_eq_zero.mp this

end

/-- where the Weyl tensor vanishes and `n ≥ 4`, the covariant derivative of the Schouten tensor is symmetric -/
theorem cotton_zero (hd : ∀ i j x, d i (d j x) = d j (d i x)) (hs : g.transpose = g) (hu : IsUnit g.det) (hn : 4 ≤ Fintype.card ι)
    (hW : ∀ i k l m, weyl d g i k l m = 0) (k n s : ι) : cov2 d g (schouten d g) k s n = cov2 d g (schouten d g) n s k := by
  have hR : ∀ a s r n, riemannLow d g a s r n = kulkarniNomizu (schouten d g) g a s r n := fun a s r n => by
    rw [ricci_decomposition, hW, zero_add]
  refine cotton_core g hs hu hn (fun k a b => cov2 d g (schouten d g) k a b) (fun k a b => ?_) (fun k a s r n => ?_) k n s
  · unfold cov2
    have e := schouten_symm d g hd hs hu
    rw [e a b]
    simp only [e _ b, e a _]
    ring
  · have := bianchi2 d g hd hs hu k a s r n
    rwa [covLow_kn d g hs hu _ hR, covLow_kn d g hs hu _ hR, covLow_kn d g hs hu _ hR] at this

end Einpy.Geo
