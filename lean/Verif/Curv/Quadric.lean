import Verif.Curv.Tractor

/-!
# Constant curvature and hyperquadrics: algebra (used for C149)
-/

set_option linter.unusedSimpArgs false

namespace Einpy.Geo
open Matrix Finset

variable {ι R : Type*} [Fintype ι] [DecidableEq ι] [CommRing R] [Algebra ℚ R]
variable (d : ι → Derivation ℚ R R) (g : Matrix ι ι R) (k : R)

/-- the connection: `∂_i σ = μ_i`, `∂_i μ_a = Γ^m_ia μ_m − k g_ia σ` -/
noncomputable def quadConn (i : ι) : Unit ⊕ ι → Unit ⊕ ι → R
  | .inl _, .inr m => (1 : Matrix ι ι R) i m
  | .inr a, .inl _ => -(k * g i a)
  | .inr a, .inr m => christoffel d g m i a
  | .inl _, .inl _ => 0

/-- the curvature of the connection -/
noncomputable def quadCurv (i j : ι) (α β : Unit ⊕ ι) : R :=
  (d i (quadConn d g k j α β) + ∑ γ, quadConn d g k j α γ * quadConn d g k i γ β) - (d j (quadConn d g k i α β) + ∑ γ, quadConn d g k i α γ * quadConn d g k j γ β)

omit [DecidableEq ι] [Algebra ℚ R] in
theorem sum_qd (f : Unit ⊕ ι → R) : ∑ γ, f γ = f (.inl ()) + ∑ m, f (.inr m) := by
  simp [Fintype.sum_sum_type]

variable {d g k}

theorem quadCurv_riemann (hs : g.transpose = g) (i j a t : ι) :
    quadCurv d g k i j (.inr a) (.inr t) = riemann d g t a i j - k * ((1 : Matrix ι ι R) t i * g a j - (1 : Matrix ι ι R) t j * g a i) := by
  have hΓ := christoffel_symm d g hs
  have hg := g_symm g hs
  unfold quadCurv
  rw [sum_qd, sum_qd]
  simp only [quadConn]
  unfold riemann
  rw [sum_sub_distrib]
  have e : ∀ i j, ∑ m, christoffel d g m j a * christoffel d g t i m = ∑ m, christoffel d g m a j * christoffel d g t m i := fun i j =>
    sum_congr rfl fun m _ => by rw [hΓ m j a, hΓ t i m]
  rw [e, e, hΓ t j a, hΓ t i a, hg j a, hg i a]
  have o : ∀ a b, (1 : Matrix ι ι R) a b = (1 : Matrix ι ι R) b a := fun a b => by simp only [Matrix.one_apply, eq_comm]
  rw [o i t, o j t]
  ring

theorem quadConn_flat (hs : g.transpose = g) (hu : IsUnit g.det) (hk : ∀ i, d i k = 0)
    (hR : ∀ t a i j, riemann d g t a i j = k * ((1 : Matrix ι ι R) t i * g a j - (1 : Matrix ι ι R) t j * g a i)) (i j : ι) (α β : Unit ⊕ ι) :
    d i (quadConn d g k j α β) + ∑ γ, quadConn d g k j α γ * quadConn d g k i γ β = d j (quadConn d g k i α β) + ∑ γ, quadConn d g k i α γ * quadConn d g k j γ β := by
  have hΓ := christoffel_symm d g hs
  have hg := g_symm g hs
  have hd1 : ∀ i a b, d i ((1 : Matrix ι ι R) a b) = 0 := fun i a b => by
    rw [Matrix.one_apply]; split_ifs <;> simp
  rcases α with _ | a <;> rcases β with _ | t
  · rw [sum_qd, sum_qd]
    simp only [quadConn, map_zero, mul_zero, zero_mul, zero_add, add_zero, Matrix.one_apply, ite_mul, one_mul, sum_ite_eq, mem_univ, if_true]
    rw [hg]
  · rw [sum_qd, sum_qd]
    simp only [quadConn, hd1, map_zero, mul_zero, zero_mul, zero_add, add_zero]
    simp only [Matrix.one_apply, ite_mul, one_mul, zero_mul, sum_ite_eq, mem_univ, if_true]
    rw [hΓ]
  · rw [sum_qd, sum_qd]
    simp only [quadConn, map_zero, mul_zero, zero_mul, zero_add, add_zero, map_neg, Derivation.leibniz, smul_eq_mul, hk]
    rw [metric_compat d g hs hu i j a, metric_compat d g hs hu j i a]
    have e1 : ∑ m, christoffel d g m i j * g m a = ∑ m, christoffel d g m j i * g m a := sum_congr rfl fun m _ => by rw [hΓ m i j]
    have e2 : ∀ i j, ∑ m, christoffel d g m j a * -(k * g i m) = -(k * ∑ m, christoffel d g m j a * g i m) := fun i j => by
      rw [mul_sum, ← sum_neg_distrib]; exact sum_congr rfl fun m _ => by ring
    rw [e2, e2]
    linear_combination (-k) * e1
  · have h := quadCurv_riemann (d := d) (k := k) hs i j a t
    rw [hR, sub_self] at h
    exact sub_eq_zero.mp h

/-- the product of two sections -/
noncomputable def quadProd (g : Matrix ι ι R) (k σ σ' : R) (μ μ' : ι → R) : R := k * (σ * σ') + tr2 g (fun a b => μ a * μ' b)

theorem d_quadProd (hs : g.transpose = g) (hu : IsUnit g.det) (hk : ∀ i, d i k = 0) {σ σ' : R} {μ μ' : ι → R} (h1 : ∀ i, d i σ = μ i) (h1' : ∀ i, d i σ' = μ' i)
    (h2 : ∀ i a, d i (μ a) = ∑ m, christoffel d g m i a * μ m - k * g i a * σ) (h2' : ∀ i a, d i (μ' a) = ∑ m, christoffel d g m i a * μ' m - k * g i a * σ') (i : ι) :
    d i (quadProd g k σ σ' μ μ') = 0 := by
  unfold quadProd
  have e := d_tr2 d g hs hu i (fun a b => μ a * μ' b)
  have e1 : (fun a b => cov2 d g (fun a b => μ a * μ' b) i a b) = fun a b => -(k * σ) * (μ' b * g i a) + -(k * σ') * (μ a * g b i) := by
    funext a b
    simp only [cov2, Derivation.leibniz, smul_eq_mul, h2, h2']
    have e2 : ∑ m, christoffel d g m i a * (μ m * μ' b) = (∑ m, christoffel d g m i a * μ m) * μ' b := by rw [sum_mul]; exact sum_congr rfl fun m _ => by ring
    have e3 : ∑ m, christoffel d g m i b * (μ a * μ' m) = (∑ m, christoffel d g m i b * μ' m) * μ a := by rw [sum_mul]; exact sum_congr rfl fun m _ => by ring
    rw [e2, e3, g_symm g hs b i]
    ring
  rw [e1, tr2_add, tr2_mul_left, tr2_mul_left, tr2_contract' g hs hu μ' i, tr2_contract g hs hu μ i] at e
  rw [map_add, e]
  simp only [Derivation.leibniz, smul_eq_mul, h1, h1', hk]
  ring

section
variable {κ l : Type*} [Fintype κ] [DecidableEq κ] [Fintype l] [DecidableEq l]
omit [Algebra ℚ R] in
/-- a matrix `M` is a frame of the form `η` exactly when it is a coframe of the inverse form -/
theorem frame_iff (q : l ≃ κ) (M : Matrix l κ R) (S : Matrix l l R) (η : Matrix κ κ R) (hη : IsUnit η.det) : M.transpose * S * M = η ↔ M * (η⁻¹ * M.transpose * S) = 1 := by
  rw [Matrix.mul_eq_one_comm_of_equiv q]
  constructor
  · intro h
    rw [Matrix.mul_assoc, Matrix.mul_assoc, ← Matrix.mul_assoc M.transpose, h, Matrix.nonsing_inv_mul _ hη]
  · intro h
    have := congrArg (η * ·) h
    simp only [Matrix.mul_one] at this
    simp only [Matrix.mul_assoc] at this ⊢
    rw [Matrix.mul_nonsing_inv_cancel_left _ _ hη] at this
    exact this
end

/-- the form of a frame: `1/k` and the metric -/
noncomputable def quadForm (g : Matrix ι ι R) (c : R) : Matrix (Unit ⊕ ι) (Unit ⊕ ι) R := Matrix.fromBlocks (Matrix.of fun _ _ => c) 0 0 g

omit [Algebra ℚ R] in
theorem quadForm_unit (hu : IsUnit g.det) {c : R} (hc : IsUnit c) : IsUnit (quadForm g c).det := by
  unfold quadForm
  rw [Matrix.det_fromBlocks_zero₂₁]
  refine IsUnit.mul ?_ hu
  simpa using hc

omit [Algebra ℚ R] in
theorem quadForm_inv (hu : IsUnit g.det) {c : R} (hc : k * c = 1) : (quadForm g c)⁻¹ = quadForm g⁻¹ k := by
  refine Matrix.inv_eq_left_inv ?_
  unfold quadForm
  rw [Matrix.fromBlocks_multiply]
  simp only [Matrix.zero_mul, Matrix.mul_zero, add_zero, zero_add, Matrix.nonsing_inv_mul g hu]
  have : (Matrix.of fun _ _ => k : Matrix Unit Unit R) * Matrix.of (fun _ _ => c) = 1 := by
    ext i j; simp [Matrix.mul_apply, hc]
  rw [this, Matrix.fromBlocks_one]

section
variable {l : Type*} [Fintype l] [DecidableEq l]

/-- the frame made of functions and their derivatives -/
def quadFrame (d : ι → Derivation ℚ R R) (φ : l → R) : Matrix l (Unit ⊕ ι) R := Matrix.of fun A => Sum.elim (fun _ => φ A) fun i => d i (φ A)

theorem quad_orth {c : R} (hdc : ∀ i, d i c = 0) (s φ : l → R) (hds : ∀ i A, d i (s A) = 0) (hq : ∑ A, s A * φ A * φ A = c) (j : ι) : ∑ A, s A * φ A * d j (φ A) = 0 := by
  have e := congrArg (d j) hq
  simp only [map_sum, Derivation.leibniz, smul_eq_mul, hds, hdc, mul_zero, add_zero] at e
  have h2 : 2 * ∑ A, s A * φ A * d j (φ A) = 0 := by
    rw [← e, mul_sum]
    exact sum_congr rfl fun A _ => by ring
  have h2u : IsUnit (2 : R) := by
    have := (show IsUnit (2 : ℚ) by norm_num).map (algebraMap ℚ R)
    rwa [map_ofNat] at this
  exact (h2u.mul_right_eq_zero).mp h2

theorem quad_frame {c : R} (hdc : ∀ i, d i c = 0) (s φ : l → R) (hds : ∀ i A, d i (s A) = 0)
    (hq : ∑ A, s A * φ A * φ A = c) (hg : ∀ i j, g i j = ∑ A, s A * d i (φ A) * d j (φ A)) :
    (quadFrame d φ).transpose * Matrix.diagonal s * quadFrame d φ = quadForm g c := by
  have ho := quad_orth hdc s φ hds hq
  ext α β
  rw [Matrix.mul_apply]
  simp only [Matrix.mul_diagonal, Matrix.transpose_apply, quadFrame, Matrix.of_apply, quadForm]
  rcases α with _ | i <;> rcases β with _ | j
  · simp only [Sum.elim_inl, Matrix.fromBlocks_apply₁₁, Matrix.of_apply]
    rw [← hq]
    exact sum_congr rfl fun A _ => by ring
  · simp only [Sum.elim_inl, Sum.elim_inr, Matrix.fromBlocks_apply₁₂, Matrix.zero_apply]
    rw [← ho j]
    exact sum_congr rfl fun A _ => by ring
  · simp only [Sum.elim_inl, Sum.elim_inr, Matrix.fromBlocks_apply₂₁, Matrix.zero_apply]
    rw [← ho i]
    exact sum_congr rfl fun A _ => by ring
  · simp only [Sum.elim_inr, Matrix.fromBlocks_apply₂₂, hg]
    exact sum_congr rfl fun A _ => by ring

/-- functions on a quadric satisfy `∂_i ∂_j φ = Γ^m_ij ∂_m φ − k g_ij φ` -/
theorem quad_hessian (hd : ∀ i j x, d i (d j x) = d j (d i x)) (hu : IsUnit g.det) {c : R} (hc : k * c = 1) (hdc : ∀ i, d i c = 0)
    (q : l ≃ Unit ⊕ ι) (s φ : l → R) (hds : ∀ i A, d i (s A) = 0)
    (hq : ∑ A, s A * φ A * φ A = c) (hg : ∀ i j, g i j = ∑ A, s A * d i (φ A) * d j (φ A)) (i j : ι) (A : l) :
    d i (d j (φ A)) = ∑ m, christoffel d g m i j * d m (φ A) - k * g i j * φ A := by
  have ho := quad_orth hdc s φ hds hq
  have hcu : IsUnit c := IsUnit.of_mul_eq_one k (by rw [mul_comm]; exact hc)
  have hM := (frame_iff q _ _ _ (quadForm_unit hu hcu)).mp (quad_frame hdc s φ hds hq hg)
  set X : l → R := fun A => d i (d j (φ A)) - (∑ m, christoffel d g m i j * d m (φ A) - k * g i j * φ A) with hX
  have hsum : ∀ Y : l → R, ∑ A, s A * Y A * X A = ∑ A, s A * Y A * d i (d j (φ A)) - (∑ m, christoffel d g m i j * ∑ A, s A * Y A * d m (φ A) - k * g i j * ∑ A, s A * Y A * φ A) := fun Y => by
    simp only [hX, mul_sub, sum_sub_distrib, mul_sum]
    congr 1
    congr 1
    · rw [sum_comm]
      exact sum_congr rfl fun m _ => sum_congr rfl fun A _ => by ring
    · exact sum_congr rfl fun A _ => by ring
  have h0 : ∀ α, ∑ A, s A * quadFrame d φ A α * X A = 0 := fun α => by
    rw [hsum]
    rcases α with _ | p
    · simp only [quadFrame, Matrix.of_apply, Sum.elim_inl, ho, mul_zero, sum_const_zero, hq]
      have e := congrArg (d i) (ho j)
      simp only [map_sum, map_zero, Derivation.leibniz, smul_eq_mul, hds, mul_zero, add_zero, sum_add_distrib] at e
      have e1 : ∑ A, d j (φ A) * (s A * d i (φ A)) = g i j := by
        rw [hg]; exact sum_congr rfl fun A _ => by ring
      rw [e1] at e
      linear_combination e + g i j * hc
    · simp only [quadFrame, Matrix.of_apply, Sum.elim_inr]
      obtain ⟨T, hT⟩ : ∃ T : ι → ι → ι → R, ∀ p i j, ∑ A, s A * d p (φ A) * d i (d j (φ A)) = T p i j := ⟨_, fun _ _ _ => rfl⟩
      have hTs : ∀ p i j, T p i j = T p j i := fun p i j => by
        rw [← hT, ← hT]; exact sum_congr rfl fun A _ => by rw [hd i j]
      have hdg : ∀ i p j, d i (g p j) = T j i p + T p i j := fun i p j => by
        rw [hg, ← hT, ← hT, ← sum_add_distrib, map_sum]
        refine sum_congr rfl fun A _ => ?_
        simp only [Derivation.leibniz, smul_eq_mul, hds]
        ring
      have h1 : ∑ A, s A * d p (φ A) * φ A = 0 := by
        rw [← ho p]; exact sum_congr rfl fun A _ => by ring
      have h2 : ∑ m, christoffel d g m i j * ∑ A, s A * d p (φ A) * d m (φ A) = T p i j := by
        have e := lower_christoffel d g hu p i j
        rw [hdg, hdg, hdg] at e
        have e2 : half (T i j p + T p j i + (T j i p + T p i j) - (T j p i + T i p j)) = T p i j := by
          rw [hTs p j i, hTs j p i, hTs i p j]
          have t := two_half (T p i j)
          have : T i j p + T p i j + (T j i p + T p i j) - (T j i p + T i j p) = 2 * T p i j := by ring
          rw [this]
          have hh : half (2 * T p i j) = 2 * half (T p i j) := by rw [half, half, mul_smul_comm]
          rw [hh, t]
        rw [← e2, ← e]
        exact sum_congr rfl fun m _ => by rw [hg p m]; ring
      rw [h1, h2, hT, mul_zero, sub_zero, sub_self]
  have hXz : X A = 0 := by
    have e : (Matrix.mulVec (quadFrame d φ * ((quadForm g c)⁻¹ * (quadFrame d φ).transpose * Matrix.diagonal s)) X) A = X A := by rw [hM, Matrix.one_mulVec]
    rw [← e, ← Matrix.mulVec_mulVec, Matrix.mul_assoc, ← Matrix.mulVec_mulVec]
    have : Matrix.mulVec ((quadFrame d φ).transpose * Matrix.diagonal s) X = 0 := by
      funext α
      rw [Matrix.mulVec, dotProduct, Pi.zero_apply, ← h0 α]
      exact sum_congr rfl fun A _ => by simp only [Matrix.mul_diagonal, Matrix.transpose_apply]; ring
    rw [this, Matrix.mulVec_zero, Matrix.mulVec_zero, Pi.zero_apply]
  exact sub_eq_zero.mp hXz

/-- a metric induced on a quadric has constant curvature -/
theorem quad_riemann (hd : ∀ i j x, d i (d j x) = d j (d i x)) (hs : g.transpose = g) (hu : IsUnit g.det) {c : R} (hc : k * c = 1) (hdc : ∀ i, d i c = 0)
    (q : l ≃ Unit ⊕ ι) (s φ : l → R) (hds : ∀ i A, d i (s A) = 0)
    (hq : ∑ A, s A * φ A * φ A = c) (hg : ∀ i j, g i j = ∑ A, s A * d i (φ A) * d j (φ A)) (t a i j : ι) :
    riemann d g t a i j = k * ((1 : Matrix ι ι R) t i * g a j - (1 : Matrix ι ι R) t j * g a i) := by
  have hH := quad_hessian hd hu hc hdc q s φ hds hq hg
  have hcu : IsUnit c := IsUnit.of_mul_eq_one k (by rw [mul_comm]; exact hc)
  have hF := quad_frame hdc s φ hds hq hg
  have hlaw : ∀ i A α, d i (quadFrame d φ A α) = ∑ β, quadConn d g k i α β * quadFrame d φ A β := fun i A α => by
    rw [sum_qd]
    rcases α with _ | a
    · simp only [quadFrame, Matrix.of_apply, Sum.elim_inl, Sum.elim_inr, quadConn, zero_mul, zero_add, Matrix.one_apply, ite_mul, one_mul, sum_ite_eq, mem_univ, if_true]
    · simp only [quadFrame, Matrix.of_apply, Sum.elim_inl, Sum.elim_inr, quadConn, hH i a A]
      ring
  have hcomm : ∀ i j A α, d i (d j (quadFrame d φ A α)) = ∑ β, (d i (quadConn d g k j α β) + ∑ γ, quadConn d g k j α γ * quadConn d g k i γ β) * quadFrame d φ A β := fun i j A α => by
    rw [hlaw, map_sum]
    simp only [Derivation.leibniz, smul_eq_mul, add_mul, sum_add_distrib, hlaw]
    rw [add_comm]
    congr 1
    · exact sum_congr rfl fun β _ => mul_comm _ _
    · simp only [mul_sum, sum_mul]
      rw [sum_comm]
      exact sum_congr rfl fun β _ => sum_congr rfl fun γ _ => by ring
  have hz : ∀ A, ∑ β, quadCurv d g k i j (.inr a) β * quadFrame d φ A β = 0 := fun A => by
    have e := hd i j (quadFrame d φ A (.inr a))
    rw [hcomm, hcomm] at e
    unfold quadCurv
    simp only [sub_mul, sum_sub_distrib]
    rw [e, sub_self]
  have hv : Matrix.mulVec (quadFrame d φ) (quadCurv d g k i j (.inr a)) = 0 := by
    funext A
    rw [Pi.zero_apply, ← hz A]
    exact sum_congr rfl fun β _ => mul_comm _ _
  have h0 : Matrix.mulVec (quadForm g c) (quadCurv d g k i j (.inr a)) = 0 := by
    rw [← hF, ← Matrix.mulVec_mulVec, hv, Matrix.mulVec_zero]
  have h1 : quadCurv d g k i j (.inr a) = 0 := by
    have := congrArg (Matrix.mulVec (quadForm g c)⁻¹) h0
    rwa [Matrix.mulVec_mulVec, Matrix.nonsing_inv_mul _ (quadForm_unit hu hcu), Matrix.one_mulVec, Matrix.mulVec_zero] at this
  have h2 := congrFun h1 (.inr t)
  rw [quadCurv_riemann hs, Pi.zero_apply] at h2
  exact sub_eq_zero.mp h2
end

end Einpy.Geo
