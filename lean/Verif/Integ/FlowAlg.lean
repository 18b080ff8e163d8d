import Mathlib.Tactic.IntervalCases
import Mathlib.Tactic.NoncommRing
import Mathlib.Tactic.Module
import Mathlib.Tactic.FieldSimp
import Mathlib.Data.Nat.Choose.Cast
import Verif.Integ.Flow

/-!
# Order conditions in a non-commutative ring
-/

namespace Einpy.Flow
open Finset

variable {R : Type*} [Ring R] [Algebra ℝ R]

/-- the series of the identity -/
noncomputable def oneSer : ℕ → R := fun k => if k = 0 then 1 else 0

omit [Algebra ℝ R] in
theorem mk_mulSer (P Q : ℕ → R) : PowerSeries.mk (mulSer P Q) = PowerSeries.mk P * PowerSeries.mk Q := by
  ext n
  rw [PowerSeries.coeff_mk, PowerSeries.coeff_mul, Nat.sum_antidiagonal_eq_sum_range_succ_mk]
  simp only [PowerSeries.coeff_mk, mulSer]

omit [Algebra ℝ R] in
theorem mk_inj {P Q : ℕ → R} (h : PowerSeries.mk P = PowerSeries.mk Q) : P = Q := by
  funext n
  have := congrArg (PowerSeries.coeff n) h
  simpa only [PowerSeries.coeff_mk] using this

omit [Algebra ℝ R] in
theorem mulSer_assoc (P Q S : ℕ → R) : mulSer (mulSer P Q) S = mulSer P (mulSer Q S) :=
  mk_inj (by simp only [mk_mulSer, mul_assoc])

omit [Algebra ℝ R] in
theorem mk_oneSer : PowerSeries.mk (oneSer : ℕ → R) = 1 := by
  ext n
  rw [PowerSeries.coeff_mk, PowerSeries.coeff_one]; rfl

omit [Algebra ℝ R] in
theorem mulSer_one (P : ℕ → R) : mulSer P oneSer = P := mk_inj (by rw [mk_mulSer, mk_oneSer, mul_one])

omit [Algebra ℝ R] in
theorem one_mulSer (P : ℕ → R) : mulSer oneSer P = P := mk_inj (by rw [mk_mulSer, mk_oneSer, one_mul])

theorem scale_mulSer (c : ℝ) (P Q : ℕ → R) : scaleSer c (mulSer P Q) = mulSer (scaleSer c P) (scaleSer c Q) := by
  funext n
  simp only [scaleSer, mulSer, smul_sum]
  refine sum_congr rfl fun k hk => ?_
  have := mem_range.mp hk
  rw [smul_mul_smul_comm, ← pow_add, show k + (n - k) = n by omega]

theorem scale_scale (c d : ℝ) (P : ℕ → R) : scaleSer c (scaleSer d P) = scaleSer d (scaleSer c P) := by
  funext n
  simp only [scaleSer, smul_smul, mul_comm]

theorem scale_one (c : ℝ) : scaleSer c (oneSer : ℕ → R) = oneSer := by
  funext n
  by_cases h : n = 0
  · subst h; simp [scaleSer]
  · simp [scaleSer, oneSer, h]

/-- `P(δ) P(-δ) = 1` -/
def Symm (P : ℕ → R) : Prop := mulSer P (scaleSer (-1) P) = oneSer

theorem Symm.scale {P : ℕ → R} (h : Symm P) (c : ℝ) : Symm (scaleSer c P) := by
  unfold Symm at *
  rw [scale_scale, ← scale_mulSer, h, scale_one]

theorem Symm.sandwich {P Q : ℕ → R} (hP : Symm P) (hQ : Symm Q) : Symm (mulSer P (mulSer Q P)) := by
  unfold Symm at *
  simp only [scale_mulSer]
  rw [mulSer_assoc P, mulSer_assoc Q, ← mulSer_assoc P (scaleSer (-1) P), hP, one_mulSer, ← mulSer_assoc Q, hQ, one_mulSer, hP]

theorem expSer_symm (c : ℝ) (a : R) : Symm (expSer c a) := by
  unfold Symm
  funext n
  have key : ∀ n : ℕ, ∑ k ∈ range (n + 1), (c ^ k / k.factorial) * ((-1) ^ (n - k) * (c ^ (n - k) / (n - k).factorial)) =
      if n = 0 then 1 else (0 : ℝ) := by
    intro n
    have h1 : (c + -c) ^ n = ∑ k ∈ range (n + 1), c ^ k * (-c) ^ (n - k) * n.choose k := add_pow _ _ _
    rw [add_neg_cancel] at h1
    have h2 : (n.factorial : ℝ) * ∑ k ∈ range (n + 1), (c ^ k / k.factorial) * ((-1) ^ (n - k) * (c ^ (n - k) / (n - k).factorial)) = 0 ^ n := by
      rw [h1, mul_sum]
      refine sum_congr rfl fun k hk => ?_
      have hk' : k ≤ n := by have := mem_range.mp hk; omega
      rw [Nat.cast_choose ℝ hk', neg_pow c]
      have := Nat.factorial_ne_zero k
      have := Nat.factorial_ne_zero (n - k)
      field_simp
    by_cases hn : n = 0
    · subst hn; simp
    · rw [zero_pow hn] at h2
      rw [if_neg hn]
      exact (mul_eq_zero.mp h2).resolve_left (by exact_mod_cast Nat.factorial_ne_zero n)
  have e : mulSer (expSer c a) (scaleSer (-1) (expSer c a)) n =
      (∑ k ∈ range (n + 1), (c ^ k / k.factorial) * ((-1) ^ (n - k) * (c ^ (n - k) / (n - k).factorial))) • a ^ n := by
    simp only [mulSer, expSer, scaleSer, sum_smul]
    refine sum_congr rfl fun k hk => ?_
    have := mem_range.mp hk
    rw [smul_smul, smul_mul_smul_comm, ← pow_add, show k + (n - k) = n by omega]
  rw [e, key]
  by_cases hn : n = 0
  · subst hn; simp [oneSer]
  · simp [oneSer, hn]

/-- The even coefficients of a symmetric series are determined by the odd ones. -/
theorem Symm.even {P : ℕ → R} (h : Symm P) (h0 : P 0 = 1) :
    P 2 = (1 / 2 : ℝ) • (P 1 * P 1) ∧ P 4 = (1 / 2 : ℝ) • (P 1 * P 3 + P 3 * P 1 - P 2 * P 2) := by
  have h2 := congrFun h 2
  have h4 := congrFun h 4
  simp only [mulSer, scaleSer, oneSer, sum_range_succ, range_zero, sum_empty, h0] at h2 h4
  norm_num at h2 h4
  constructor
  · have : P 2 + P 2 = P 1 * P 1 := by
      rw [← sub_eq_zero, ← h2]; abel
    rw [← this]; module
  · have : P 4 + P 4 = P 1 * P 3 + P 3 * P 1 - P 2 * P 2 := by
      rw [← sub_eq_zero, ← h4]; abel
    rw [← this]; module

/-- A symmetric series that agrees with `exp(δX)` in the coefficients 0, 1, 3 agrees with it up to the fourth. -/
theorem Symm.order4 {P : ℕ → R} (h : Symm P) {X : R} (h0 : P 0 = 1) (h1 : P 1 = X) (h3 : P 3 = (1 / 6 : ℝ) • X ^ 3) :
    ∀ k < 5, P k = expSer 1 X k := by
  obtain ⟨e2, e4⟩ := h.even h0
  rw [h1] at e2 e4
  rw [e2, h3] at e4
  intro k hk
  interval_cases k
  · simp [expSer, h0]
  · simp [expSer, h1]
  · rw [e2]; simp [expSer, pow_two]
  · rw [h3]; norm_num [expSer, Nat.factorial]
  · rw [e4]
    simp only [expSer, smul_mul_assoc, mul_smul_comm]
    rw [show X * X ^ 3 = X ^ 4 from (pow_succ' X 3).symm, show X ^ 3 * X = X ^ 4 from (pow_succ X 3).symm,
      show X * X * (X * X) = X ^ 4 by noncomm_ring]
    norm_num [Nat.factorial]
    module

/-- A symmetric series with the right first coefficient agrees with `exp(δX)` up to the second. -/
theorem Symm.order2 {P : ℕ → R} (h : Symm P) {X : R} (h0 : P 0 = 1) (h1 : P 1 = X) : ∀ k < 3, P k = expSer 1 X k := by
  obtain ⟨e2, -⟩ := h.even h0
  rw [h1] at e2
  intro k hk
  interval_cases k
  · simp [expSer, h0]
  · simp [expSer, h1]
  · rw [e2]; simp [expSer, pow_two]

/-- the product of the series `S(w δ)` for the weights `w` in turn -/
noncomputable def listSer (S : ℕ → R) : List ℝ → ℕ → R
  | [] => oneSer
  | w :: ws => mulSer (scaleSer w S) (listSer S ws)

theorem listSer_coeffs {S : ℕ → R} {X : R} (h0 : S 0 = 1) (h1 : S 1 = X) (h2 : S 2 = (1 / 2 : ℝ) • X ^ 2) (ws : List ℝ) :
    listSer S ws 0 = 1 ∧ listSer S ws 1 = ws.sum • X ∧ listSer S ws 2 = (ws.sum ^ 2 / 2) • X ^ 2 ∧
    listSer S ws 3 = (ws.sum ^ 3 / 6) • X ^ 3 + (ws.map (· ^ 3)).sum • (S 3 - (1 / 6 : ℝ) • X ^ 3) := by
  induction ws with
  | nil => simp [listSer, oneSer]
  | cons w ws ih =>
    obtain ⟨i0, i1, i2, i3⟩ := ih
    simp only [listSer, mulSer, scaleSer, sum_range_succ, range_zero, sum_empty, zero_add, Nat.sub_self, Nat.sub_zero,
      i0, i1, i2, i3, h0, h1, h2, List.sum_cons, List.map_cons, Nat.reduceSub]
    generalize S 3 = T
    generalize ws.sum = u
    generalize (ws.map (· ^ 3)).sum = v
    simp only [smul_mul_assoc, mul_smul_comm, one_mul, mul_one, smul_smul, ← pow_succ, ← pow_succ', ← pow_two, Nat.reduceAdd]
    refine ⟨?_, ?_, ?_, ?_⟩
    · simp
    · module
    · module
    · module

theorem listSer_symm_triple {S : ℕ → R} (h : Symm S) (a b : ℝ) : Symm (listSer S [a, b, a]) := by
  simp only [listSer, mulSer_one]
  exact (h.scale a).sandwich (h.scale b)

end Einpy.Flow
