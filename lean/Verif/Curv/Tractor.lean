import Verif.Curv.Cotton

/-!
# A flat connection on `R × covectors × R` for metrics with vanishing Weyl tensor (used for C146)
-/

set_option linter.unusedSimpArgs false

namespace Einpy.Geo
open Matrix Finset

variable {ι R : Type*} [Fintype ι] [DecidableEq ι] [CommRing R] [Algebra ℚ R]
variable (d : ι → Derivation ℚ R R) (g : Matrix ι ι R)

/-- the Schouten tensor with its second index raised -/
noncomputable def schoutenUp (i m : ι) : R := ∑ b, schouten d g i b * g⁻¹ b m

/-- the connection: `∂_i σ = μ_i`, `∂_i μ_a = Γ^m_ia μ_m − P_ia σ − g_ia ρ`, `∂_i ρ = P_i^m μ_m` -/
noncomputable def tractor (i : ι) : Unit ⊕ ι ⊕ Unit → Unit ⊕ ι ⊕ Unit → R
  | .inl _, .inr (.inl m) => (1 : Matrix ι ι R) i m
  | .inr (.inl a), .inl _ => -schouten d g i a
  | .inr (.inl a), .inr (.inl m) => christoffel d g m i a
  | .inr (.inl a), .inr (.inr _) => -g i a
  | .inr (.inr _), .inr (.inl m) => schoutenUp d g i m
  | _, _ => 0

theorem riemann_of_weyl (hs : g.transpose = g) (hu : IsUnit g.det) (hP : ∀ a b, schouten d g a b = schouten d g b a) (hW : ∀ i k l m, weyl d g i k l m = 0) (t s r n : ι) :
    riemann d g t s r n = schoutenUp d g r t * g s n + schouten d g s n * (1 : Matrix ι ι R) t r - schoutenUp d g n t * g s r - schouten d g s r * (1 : Matrix ι ι R) t n := by
  have hR : ∀ a s r n, riemannLow d g a s r n = kulkarniNomizu (schouten d g) g a s r n := fun a s r n => by
    rw [ricci_decomposition, hW, zero_add]
  rw [← raise_low d g hu]
  simp only [hR, kulkarniNomizu, mul_sub, mul_add, sum_add_distrib, sum_sub_distrib]
  have e1 : ∀ r y, ∑ a, g⁻¹ t a * (schouten d g a r * y) = schoutenUp d g r t * y := fun r y => by
    unfold schoutenUp
    rw [sum_mul]
    exact sum_congr rfl fun a _ => by rw [ginv_symm g hs t a, hP a r]; ring
  have e2 : ∀ r y, ∑ a, g⁻¹ t a * (y * g a r) = y * (1 : Matrix ι ι R) t r := fun r y => by
    rw [← Matrix.nonsing_inv_mul g hu, Matrix.mul_apply, mul_sum]
    exact sum_congr rfl fun a _ => by ring
  rw [e1, e1, e2, e2]

omit [DecidableEq ι] [Algebra ℚ R] in
theorem sum_tr (f : Unit ⊕ ι ⊕ Unit → R) : ∑ γ, f γ = f (.inl ()) + (∑ m, f (.inr (.inl m)) + f (.inr (.inr ()))) := by
  simp [Fintype.sum_sum_type]

theorem tractor_mid (hd : ∀ i j x, d i (d j x) = d j (d i x)) (hs : g.transpose = g) (hu : IsUnit g.det) (hW : ∀ i k l m, weyl d g i k l m = 0) (i j a k : ι) :
    d i (tractor d g j (.inr (.inl a)) (.inr (.inl k))) + ∑ γ, tractor d g j (.inr (.inl a)) γ * tractor d g i γ (.inr (.inl k)) =
      d j (tractor d g i (.inr (.inl a)) (.inr (.inl k))) + ∑ γ, tractor d g i (.inr (.inl a)) γ * tractor d g j γ (.inr (.inl k)) := by
  have hP := schouten_symm d g hd hs hu
  have hΓ := christoffel_symm d g hs
  have hg := g_symm g hs
  rw [sum_tr, sum_tr]
  simp only [tractor]
  have h := riemann_of_weyl d g hs hu hP hW k a i j
  unfold riemann at h
  rw [sum_sub_distrib] at h
  have e : ∀ i j, ∑ m, christoffel d g m j a * christoffel d g k i m = ∑ m, christoffel d g m a j * christoffel d g k m i := fun i j =>
    sum_congr rfl fun m _ => by rw [hΓ m j a, hΓ k i m]
  rw [e, e, hΓ k j a, hΓ k i a, hP j a, hP i a, hg j a, hg i a]
  have o : ∀ a b, (1 : Matrix ι ι R) a b = (1 : Matrix ι ι R) b a := fun a b => by simp only [Matrix.one_apply, eq_comm]
  rw [o i k, o j k]
  linear_combination h

theorem tractor_last (hs : g.transpose = g) (hu : IsUnit g.det) (i j a : ι) :
    d i (tractor d g j (.inr (.inl a)) (.inr (.inr ()))) + ∑ γ, tractor d g j (.inr (.inl a)) γ * tractor d g i γ (.inr (.inr ())) =
      d j (tractor d g i (.inr (.inl a)) (.inr (.inr ()))) + ∑ γ, tractor d g i (.inr (.inl a)) γ * tractor d g j γ (.inr (.inr ())) := by
  have hΓ := christoffel_symm d g hs
  rw [sum_tr, sum_tr]
  simp only [tractor, map_zero, mul_zero, zero_mul, zero_add, add_zero, map_neg]
  rw [metric_compat d g hs hu i j a, metric_compat d g hs hu j i a]
  have e1 : ∑ m, christoffel d g m i j * g m a = ∑ m, christoffel d g m j i * g m a := sum_congr rfl fun m _ => by rw [hΓ m i j]
  have e2 : ∀ i j, ∑ m, christoffel d g m j a * -g i m = -∑ m, christoffel d g m j a * g i m := fun i j => by
    rw [← sum_neg_distrib]; exact sum_congr rfl fun m _ => by ring
  rw [e2, e2]
  linear_combination -e1

theorem tractor_flat (hd : ∀ i j x, d i (d j x) = d j (d i x)) (hs : g.transpose = g) (hu : IsUnit g.det)
    (hW : ∀ i k l m, weyl d g i k l m = 0) (hC : ∀ k n s, cov2 d g (schouten d g) k s n = cov2 d g (schouten d g) n s k) (i j : ι) (α β : Unit ⊕ ι ⊕ Unit) :
    d i (tractor d g j α β) + ∑ γ, tractor d g j α γ * tractor d g i γ β = d j (tractor d g i α β) + ∑ γ, tractor d g i α γ * tractor d g j γ β := by
  have hP := schouten_symm d g hd hs hu
  have hΓ := christoffel_symm d g hs
  have hg := g_symm g hs
  have hd1 : ∀ i a b, d i ((1 : Matrix ι ι R) a b) = 0 := fun i a b => by
    rw [Matrix.one_apply]; split_ifs <;> simp
  rw [sum_tr, sum_tr]
  rcases α with _ | a | _ <;> rcases β with _ | k | _
  · simp only [tractor, map_zero, mul_zero, zero_mul, zero_add, add_zero, Matrix.one_apply, ite_mul, one_mul, sum_ite_eq, mem_univ, if_true]
    rw [hP]
  · simp only [tractor, hd1, map_zero, mul_zero, zero_mul, zero_add, add_zero]
    simp only [Matrix.one_apply, ite_mul, one_mul, zero_mul, sum_ite_eq, mem_univ, if_true]
    rw [hΓ]
  · simp only [tractor, map_zero, mul_zero, zero_mul, zero_add, add_zero, Matrix.one_apply, ite_mul, one_mul, sum_ite_eq, mem_univ, if_true]
    rw [hg]
  · simp only [tractor, map_zero, mul_zero, zero_mul, zero_add, add_zero, map_neg]
    have h := hC i j a
    simp only [cov2] at h
    have e1 : ∑ m, christoffel d g m i j * schouten d g a m = ∑ m, christoffel d g m j i * schouten d g a m := sum_congr rfl fun m _ => by rw [hΓ m i j]
    have e2 : ∀ i j, ∑ m, christoffel d g m j a * -schouten d g i m = -∑ m, christoffel d g m j a * schouten d g m i := fun i j => by
      rw [← sum_neg_distrib]; exact sum_congr rfl fun m _ => by rw [hP i m]; ring
    rw [e2, e2, hP j a, hP i a]
    linear_combination -h - e1
  · rw [← sum_tr (fun γ => tractor d g j (.inr (.inl a)) γ * tractor d g i γ (.inr (.inl k))), ← sum_tr (fun γ => tractor d g i (.inr (.inl a)) γ * tractor d g j γ (.inr (.inl k)))]
    exact tractor_mid d g hd hs hu hW i j a k
  · rw [← sum_tr (fun γ => tractor d g j (.inr (.inl a)) γ * tractor d g i γ (.inr (.inr ()))), ← sum_tr (fun γ => tractor d g i (.inr (.inl a)) γ * tractor d g j γ (.inr (.inr ())))]
    exact tractor_last d g hs hu i j a
  · simp only [tractor, map_zero, mul_zero, zero_mul, zero_add, add_zero]
    have e : ∀ i j, ∑ m, schoutenUp d g j m * -schouten d g i m = -∑ b, ∑ m, schouten d g j b * g⁻¹ b m * schouten d g i m := fun i j => by
      unfold schoutenUp
      simp only [sum_mul, mul_neg, sum_neg_distrib]
      rw [sum_comm]
    rw [e, e, sum_comm]
    refine congrArg Neg.neg (sum_congr rfl fun m _ => sum_congr rfl fun b _ => ?_)
    rw [ginv_symm g hs b m]; ring
  · simp only [tractor, map_zero, mul_zero, zero_mul, zero_add, add_zero]
    have hI : ∀ i b, d i (g⁻¹ b k) = -(∑ m, g⁻¹ b m * christoffel d g k m i) - ∑ m, christoffel d g b m i * g⁻¹ m k := fun i b =>
      congrFun (congrFun (compatInv d g hs hu i) b) k
    have key : ∀ i j, d i (schoutenUp d g j k) + ∑ m, schoutenUp d g j m * christoffel d g k i m
        = ∑ b, (cov2 d g (schouten d g) i j b + ∑ m, christoffel d g m i j * schouten d g m b) * g⁻¹ b k := fun i j => by
      unfold schoutenUp cov2
      simp only [map_sum, Derivation.leibniz, smul_eq_mul, hI, sum_mul, add_mul, sub_mul, mul_add, mul_sub, mul_neg, sum_add_distrib, sum_sub_distrib, sum_neg_distrib, mul_sum]
      have e1 : ∑ x, ∑ i_1, schouten d g j i_1 * g⁻¹ i_1 x * christoffel d g k i x = ∑ x, ∑ x_1, schouten d g j x * (g⁻¹ x x_1 * christoffel d g k x_1 i) := by
        rw [sum_comm]
        exact sum_congr rfl fun b _ => sum_congr rfl fun m _ => by rw [hΓ k i m]; ring
      have e2 : ∑ x, ∑ i_1, schouten d g j x * (christoffel d g x i_1 i * g⁻¹ i_1 k) = ∑ x, ∑ i_1, christoffel d g i_1 i x * schouten d g j i_1 * g⁻¹ x k := by
        rw [sum_comm]
        exact sum_congr rfl fun b _ => sum_congr rfl fun m _ => by rw [hΓ m i b]; ring
      have e3 : ∑ x, g⁻¹ x k * d i (schouten d g j x) = ∑ x, d i (schouten d g j x) * g⁻¹ x k := sum_congr rfl fun b _ => mul_comm _ _
      rw [e1, e2, e3]
      ring
    rw [key, key]
    refine sum_congr rfl fun b _ => ?_
    have e1 : ∀ i j, cov2 d g (schouten d g) i j b = cov2 d g (schouten d g) i b j := fun i j => by
      unfold cov2
      rw [hP j b]
      simp only [hP _ b, hP j _]
      ring
    rw [e1, e1, hC i j b]
    congr 2
    exact sum_congr rfl fun m _ => by rw [hΓ m i j]
  · simp only [tractor, map_zero, mul_zero, zero_mul, zero_add, add_zero]
    have e : ∀ i j, ∑ m, schoutenUp d g j m * -g i m = -schouten d g j i := fun i j => by
      unfold schoutenUp
      have : ∑ m, (∑ b, schouten d g j b * g⁻¹ b m) * g i m = ∑ b, schouten d g j b * (1 : Matrix ι ι R) b i := by
        rw [← Matrix.nonsing_inv_mul g hu]
        simp only [Matrix.mul_apply, mul_sum, sum_mul]
        rw [sum_comm]
        exact sum_congr rfl fun b _ => sum_congr rfl fun m _ => by rw [hg i m]; ring
      simp only [mul_neg, sum_neg_distrib, this]
      simp [Matrix.one_apply]
    rw [e, e, hP]

/-- a parallel section: `(σ, μ, ρ)` -/
structure TractorParallel (σ : R) (μ : ι → R) (ρ : R) : Prop where
  dσ : ∀ i, d i σ = μ i
  dμ : ∀ i a, d i (μ a) = ∑ m, christoffel d g m i a * μ m - schouten d g i a * σ - g i a * ρ
  dρ : ∀ i, d i ρ = ∑ m, schoutenUp d g i m * μ m

/-- the invariant square of a section -/
noncomputable def tractorSq (σ : R) (μ : ι → R) (ρ : R) : R := 2 * (σ * ρ) + tr2 g (fun a b => μ a * μ b)

variable {d g}

theorem tractor_up (μ : ι → R) (i : ι) : ∑ m, schoutenUp d g i m * μ m = tr2 g (fun a b => schouten d g i a * μ b) := by
  unfold schoutenUp tr2
  simp only [sum_mul]
  rw [sum_comm]
  exact sum_congr rfl fun a _ => sum_congr rfl fun b _ => by ring

theorem d_tractorSq (hs : g.transpose = g) (hu : IsUnit g.det) {σ : R} {μ : ι → R} {ρ : R} (h1 : ∀ i, d i σ = μ i)
    (h2 : ∀ i a, d i (μ a) = ∑ m, christoffel d g m i a * μ m - schouten d g i a * σ - g i a * ρ) (i : ι) :
    d i (tractorSq g σ μ ρ) = 2 * (σ * (d i ρ - ∑ m, schoutenUp d g i m * μ m)) := by
  unfold tractorSq
  have e := d_tr2 d g hs hu i (fun a b => μ a * μ b)
  have e1 : (fun a b => cov2 d g (fun a b => μ a * μ b) i a b) = fun a b => -σ * (schouten d g i a * μ b) + (-σ * (schouten d g i b * μ a) + (-ρ * (μ b * g i a) + -ρ * (μ a * g b i))) := by
    funext a b
    simp only [cov2, Derivation.leibniz, smul_eq_mul, h2]
    have e2 : ∑ m, christoffel d g m i a * (μ m * μ b) = (∑ m, christoffel d g m i a * μ m) * μ b := by rw [sum_mul]; exact sum_congr rfl fun m _ => by ring
    have e3 : ∑ m, christoffel d g m i b * (μ a * μ m) = (∑ m, christoffel d g m i b * μ m) * μ a := by rw [sum_mul]; exact sum_congr rfl fun m _ => by ring
    rw [e2, e3, g_symm g hs b i]
    ring
  have e4 : tr2 g (fun a b => schouten d g i b * μ a) = tr2 g (fun a b => schouten d g i a * μ b) := by
    unfold tr2
    rw [sum_comm]
    exact sum_congr rfl fun a _ => sum_congr rfl fun b _ => by rw [ginv_symm g hs]
  rw [e1, tr2_add, tr2_add, tr2_add, tr2_mul_left, tr2_mul_left, tr2_mul_left, tr2_mul_left, tr2_contract' g hs hu μ i, tr2_contract g hs hu μ i, e4, ← tractor_up] at e
  have hz : d i (2 : R) = 0 := by
    have := (d i).map_natCast 2
    simpa using this
  rw [map_add, e]
  simp only [Derivation.leibniz, smul_eq_mul, h1, hz]
  ring

theorem tractor_sq_const (hs : g.transpose = g) (hu : IsUnit g.det) {σ : R} {μ : ι → R} {ρ : R} (h : TractorParallel d g σ μ ρ) (i : ι) : d i (tractorSq g σ μ ρ) = 0 := by
  rw [d_tractorSq hs hu h.dσ h.dμ, h.dρ, sub_self, mul_zero, mul_zero]

/-- a null section with invertible `σ` rescales the metric to a flat one -/
theorem tractor_riemann (hd : ∀ i j x, d i (d j x) = d j (d i x)) (hs : g.transpose = g) (hu : IsUnit g.det) (hn : 3 ≤ Fintype.card ι)
    (hW : ∀ i k l m, weyl d g i k l m = 0)
    {σ τ : R} {μ : ι → R} {ρ : R} (h : TractorParallel d g σ μ ρ) (hN : tractorSq g σ μ ρ = 0) (hτ : σ * τ = 1) (t s r n : ι) :
    riemann d ((τ * τ) • g) t s r n = 0 := by
  have hP := schouten_symm d g hd hs hu
  have hτd : ∀ i, d i τ = -(τ * τ * μ i) := fun i => by
    have e := congrArg (d i) hτ
    simp only [Derivation.leibniz, smul_eq_mul, h.dσ, Derivation.map_one_eq_zero] at e
    linear_combination τ * e - (d i τ) * hτ
  have hw : ∀ a, d a (τ * τ) = 2 * (τ * τ * (-(τ * μ a))) := fun a => by
    simp only [Derivation.leibniz, smul_eq_mul, hτd]
    ring
  have hun : IsUnit (τ * τ) := by
    have : IsUnit τ := IsUnit.of_mul_eq_one σ (by rw [mul_comm]; exact hτ)
    exact this.mul this
  have hdw : ∀ a b, d a (-(τ * μ b)) = τ * τ * (μ a * μ b) - τ * ∑ m, christoffel d g m a b * μ m + schouten d g a b + τ * ρ * g a b := fun a b => by
    simp only [map_neg, Derivation.leibniz, smul_eq_mul, hτd, h.dμ]
    linear_combination (schouten d g a b) * hτ
  have hc : ∀ a b, d a (-(τ * μ b)) = d b (-(τ * μ a)) := fun a b => by
    rw [hdw, hdw, hP a b, g_symm g hs a b]
    have : ∑ m, christoffel d g m a b * μ m = ∑ m, christoffel d g m b a * μ m := sum_congr rfl fun m _ => by rw [christoffel_symm d g hs m a b]
    rw [this]; ring
  have hsq : wSq g (fun a => -(τ * μ a)) = -(2 * (τ * ρ)) := by
    have e1 : wSq g (fun a => -(τ * μ a)) = τ * τ * tr2 g (fun a b => μ a * μ b) := by
      unfold wSq wUp tr2
      simp only [mul_sum]
      exact sum_congr rfl fun a _ => sum_congr rfl fun b _ => by ring
    unfold tractorSq at hN
    rw [e1]
    linear_combination (τ * τ) * hN - 2 * τ * ρ * hτ
  have hB : ∀ a b, confB d g (fun a => -(τ * μ a)) a b = schouten d g a b := fun a b => by
    unfold confB cov1
    rw [hdw, hsq]
    have e1 : ∑ m, christoffel d g m a b * -(τ * μ m) = -(τ * ∑ m, christoffel d g m a b * μ m) := by
      rw [mul_sum, ← sum_neg_distrib]; exact sum_congr rfl fun m _ => by ring
    have e2 : half (-(2 * (τ * ρ)) * g a b) = -(τ * ρ * g a b) := by
      have t := two_half (-(τ * ρ * g a b))
      have hh : ∀ y : R, half (2 * y) = 2 * half y := fun y => by rw [half, half, mul_smul_comm]
      rw [← t, ← hh]; congr 1; ring
    rw [e1, e2]
    ring
  have hsu : ((τ * τ) • g).transpose = (τ * τ) • g := by rw [Matrix.transpose_smul, hs]
  have huu : IsUnit ((τ * τ) • g).det := by rw [Matrix.det_smul]; exact (hun.pow _).mul hu
  have hS : ∀ a b, schouten d ((τ * τ) • g) a b = 0 := fun a b => by
    rw [conf_schouten d g _ hs hu _ hun hw hc hn, hB, sub_self]
  have hL : ∀ a s r n, riemannLow d ((τ * τ) • g) a s r n = 0 := fun a s r n => by
    rw [ricci_decomposition, conf_weyl d g _ hs hu _ hun hw hc hn, hW]
    simp only [kulkarniNomizu, hS]
    ring
  rw [← raise_low d _ huu]
  simp only [hL, mul_zero, sum_const_zero]

/-- the section given by a rescaling to a metric with vanishing Schouten tensor -/
theorem tractor_of_flat (hd : ∀ i j x, d i (d j x) = d j (d i x)) (hs : g.transpose = g) (hu : IsUnit g.det) (hn : 3 ≤ Fintype.card ι)
    {σ τ : R} (hτ : σ * τ = 1) (hS : ∀ a b, schouten d ((τ * τ) • g) a b = 0) : ∃ ρ, TractorParallel d g σ (fun i => d i σ) ρ := by
  obtain ⟨μ, hμ⟩ : ∃ μ : ι → R, ∀ i, d i σ = μ i := ⟨_, fun _ => rfl⟩
  obtain ⟨T, hT⟩ : ∃ T, tr2 g (fun a b => μ a * μ b) = T := ⟨_, rfl⟩
  have e0 : (fun i => d i σ) = μ := funext hμ
  rw [e0]
  have hτd : ∀ i, d i τ = -(τ * τ * μ i) := fun i => by
    have e := congrArg (d i) hτ
    simp only [Derivation.leibniz, smul_eq_mul, hμ, Derivation.map_one_eq_zero] at e
    linear_combination τ * e - (d i τ) * hτ
  have hsymm : ∀ a b, d a (μ b) = d b (μ a) := fun a b => by rw [← hμ, ← hμ, hd]
  have hw : ∀ a, d a (τ * τ) = 2 * (τ * τ * (-(τ * μ a))) := fun a => by
    simp only [Derivation.leibniz, smul_eq_mul, hτd]
    ring
  have hτu : IsUnit τ := IsUnit.of_mul_eq_one σ (by rw [mul_comm]; exact hτ)
  have hun : IsUnit (τ * τ) := hτu.mul hτu
  have hdw : ∀ a b, d a (-(τ * μ b)) = τ * τ * (μ a * μ b) - τ * d a (μ b) := fun a b => by
    simp only [map_neg, Derivation.leibniz, smul_eq_mul, hτd]
    ring
  have hc : ∀ a b, d a (-(τ * μ b)) = d b (-(τ * μ a)) := fun a b => by
    rw [hdw, hdw, hsymm a b]; ring
  have hsq : wSq g (fun a => -(τ * μ a)) = τ * τ * T := by
    unfold wSq wUp
    rw [← hT]
    unfold tr2
    simp only [mul_sum]
    exact sum_congr rfl fun a _ => sum_congr rfl fun b _ => by ring
  have h2 := two_half (τ * T)
  have hP : ∀ a b, schouten d g a b = -(τ * d a (μ b)) + τ * (∑ m, christoffel d g m a b * μ m) + τ * half (τ * T) * g a b := fun a b => by
    have e := conf_schouten d g _ hs hu _ hun hw hc hn a b
    rw [hS, eq_comm, sub_eq_zero] at e
    rw [e]
    unfold confB cov1
    rw [hdw, hsq]
    have e1 : ∑ m, christoffel d g m a b * -(τ * μ m) = -(τ * ∑ m, christoffel d g m a b * μ m) := by
      rw [mul_sum, ← sum_neg_distrib]; exact sum_congr rfl fun m _ => by ring
    have e2 : half (τ * τ * T * g a b) = τ * half (τ * T) * g a b := by
      unfold half
      rw [mul_smul_comm, smul_mul_assoc]
      congr 1; ring
    rw [e1, e2]
    ring
  have hdμ : ∀ i a, d i (μ a) = ∑ m, christoffel d g m i a * μ m - schouten d g i a * σ - g i a * -half (τ * T) := fun i a => by
    rw [hP]
    linear_combination (-(d i (μ a)) + (∑ m, christoffel d g m i a * μ m) + half (τ * T) * g i a) * hτ
  have hN : tractorSq g σ μ (-half (τ * T)) = 0 := by
    unfold tractorSq
    rw [hT]
    linear_combination (-σ) * h2 - T * hτ
  refine ⟨-half (τ * T), hμ, hdμ, fun i => ?_⟩
  have e := d_tractorSq hs hu hμ hdμ i
  rw [hN, map_zero] at e
  have h2u : IsUnit (2 : R) := by
    have := (show IsUnit (2 : ℚ) by norm_num).map (algebraMap ℚ R)
    rwa [map_ofNat] at this
  have hσu : IsUnit σ := IsUnit.of_mul_eq_one τ hτ
  exact sub_eq_zero.mp ((hσu.mul_right_eq_zero).mp ((h2u.mul_right_eq_zero).mp e.symm))

/-- a section with invertible `σ` exists only where the Cotton tensor vanishes -/
theorem cotton_of_tractor (hd : ∀ i j x, d i (d j x) = d j (d i x)) (hs : g.transpose = g) (hu : IsUnit g.det) (hW : ∀ i k l m, weyl d g i k l m = 0)
    {σ : R} {μ : ι → R} {ρ : R} (h : TractorParallel d g σ μ ρ) (hσ : IsUnit σ) (k n s : ι) : cov2 d g (schouten d g) k s n = cov2 d g (schouten d g) n s k := by
  set e : Unit ⊕ ι ⊕ Unit → R := Sum.elim (fun _ => σ) (Sum.elim μ fun _ => ρ) with he
  have hlaw : ∀ i α, d i (e α) = ∑ β, tractor d g i α β * e β := fun i α => by
    rw [sum_tr]
    rcases α with _ | a | _
    · simp only [he, Sum.elim_inl, Sum.elim_inr, tractor, zero_mul, zero_add, add_zero, h.dσ, Matrix.one_apply, ite_mul, one_mul, sum_ite_eq, mem_univ, if_true]
    · simp only [he, Sum.elim_inl, Sum.elim_inr, tractor, h.dμ]
      ring
    · simp only [he, Sum.elim_inl, Sum.elim_inr, tractor, zero_mul, zero_add, add_zero, h.dρ]
  have hcomm : ∀ i j α, d i (d j (e α)) = ∑ β, (d i (tractor d g j α β) + ∑ γ, tractor d g j α γ * tractor d g i γ β) * e β := fun i j α => by
    rw [hlaw, map_sum]
    simp only [Derivation.leibniz, smul_eq_mul, add_mul, sum_add_distrib, hlaw]
    rw [add_comm]
    congr 1
    · exact sum_congr rfl fun β _ => mul_comm _ _
    · simp only [mul_sum, sum_mul]
      rw [sum_comm]
      exact sum_congr rfl fun β _ => sum_congr rfl fun γ _ => by ring
  have hz := hd k n (e (.inr (.inl s)))
  rw [hcomm, hcomm, sum_tr (fun β => (d k (tractor d g n (.inr (.inl s)) β) + ∑ γ, tractor d g n (.inr (.inl s)) γ * tractor d g k γ β) * e β),
    sum_tr (fun β => (d n (tractor d g k (.inr (.inl s)) β) + ∑ γ, tractor d g k (.inr (.inl s)) γ * tractor d g n γ β) * e β)] at hz
  have em : ∀ m, d k (tractor d g n (.inr (.inl s)) (.inr (.inl m))) + ∑ γ, tractor d g n (.inr (.inl s)) γ * tractor d g k γ (.inr (.inl m)) = _ := fun m => tractor_mid d g hd hs hu hW k n s m
  simp only [em, tractor_last d g hs hu k n s] at hz
  have hz2 := hσ.mul_right_cancel (add_right_cancel hz)
  have hP := schouten_symm d g hd hs hu
  have hΓ := christoffel_symm d g hs
  rw [sum_tr, sum_tr] at hz2
  simp only [tractor, map_zero, mul_zero, zero_mul, zero_add, add_zero, map_neg] at hz2
  simp only [cov2]
  have e1 : ∑ m, christoffel d g m k n * schouten d g s m = ∑ m, christoffel d g m n k * schouten d g s m := sum_congr rfl fun m _ => by rw [hΓ m k n]
  have e2 : ∀ i j, ∑ m, christoffel d g m j s * -schouten d g i m = -∑ m, christoffel d g m j s * schouten d g m i := fun i j => by
    rw [← sum_neg_distrib]; exact sum_congr rfl fun m _ => by rw [hP i m]; ring
  rw [e2, e2, hP n s, hP k s] at hz2
  linear_combination -hz2 - e1

end Einpy.Geo
