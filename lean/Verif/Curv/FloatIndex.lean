import Mathlib.Algebra.Order.Floor.Ring
import Mathlib.Data.Rat.Floor
import Mathlib.Order.Interval.Finset.Defs
import Mathlib.Data.Int.Interval
import Mathlib.Data.Set.Finite.Lattice
import Mathlib.Data.Set.Finite.Lemmas
import Mathlib.Tactic.Linarith
import Mathlib.Tactic.Positivity
import Mathlib.Tactic.FieldSimp
import Mathlib.Tactic.NormNum.Pow
import Verif.Curv.Lemmas

/-!
# C24: the floating-point index arithmetic of the flattened loops

christoffel.py:63-67, riemann.py:78-84, weyl.py:70-77 decode a loop counter `t` with
`int(t / dims**k) % dims`, where `/` is true division of integers: the IEEE double nearest to the quotient.
-/

namespace Einpy
open Classical

/-- The finite IEEE 754 double-precision numbers: `m · 2^e` with `|m| < 2^53` and `-1074 ≤ e ≤ 971`. -/
def IsDouble (x : ℚ) : Prop :=
  ∃ m e : ℤ, |m| < 2 ^ 53 ∧ -1074 ≤ e ∧ e ≤ 971 ∧ x = m * (2 : ℚ) ^ e

/-- A rounding to nearest (any rule for ties). -/
structure IsNearest (rnd : ℚ → ℚ) : Prop where
  double : ∀ x, IsDouble (rnd x)
  nearest : ∀ x y, IsDouble y → |x - rnd x| ≤ |x - y|

/-- `int(t / d) % dims` in floating point (`int` truncates; the quotient is non-negative). -/
def floatDigit (rnd : ℚ → ℚ) (dims t d : Nat) : Nat := ⌊rnd ((t : ℚ) / d)⌋.toNat % dims

theorem isDouble_nat (q : Nat) (h : q ≤ 2 ^ 53) : IsDouble q := by
  rcases Nat.lt_or_ge q (2 ^ 53) with h1 | h1
  · refine ⟨q, 0, ?_, by norm_num, by norm_num, by simp⟩
    rw [abs_of_nonneg (by positivity)]
    exact_mod_cast h1
  · obtain rfl : q = 2 ^ 53 := le_antisymm h h1
    exact ⟨2 ^ 52, 1, by norm_num, by norm_num, by norm_num, by norm_num⟩

/-- the double just below `q + 1` -/
theorem isDouble_pred (q k : Nat) (hk : k ≤ 53) (h : q + 1 ≤ 2 ^ k) :
    IsDouble ((q : ℚ) + 1 - (2 : ℚ) ^ ((k : ℤ) - 53)) := by
  obtain ⟨j, hj⟩ : ∃ j, 53 = k + j := ⟨53 - k, by omega⟩
  have hpow : 2 ^ 53 = 2 ^ k * 2 ^ j := by rw [hj, pow_add]
  have hpos : 1 ≤ (q + 1) * 2 ^ j := Nat.one_le_iff_ne_zero.mpr (by positivity)
  refine ⟨((q : ℤ) + 1) * 2 ^ j - 1, (k : ℤ) - 53, ?_, by omega, by omega, ?_⟩
  · have h1 : (q + 1) * 2 ^ j ≤ 2 ^ 53 := by rw [hpow]; exact Nat.mul_le_mul_right _ h
    have h2 : ((q : ℤ) + 1) * 2 ^ j ≤ 2 ^ 53 := by exact_mod_cast h1
    have h3 : 1 ≤ ((q : ℤ) + 1) * 2 ^ j := by exact_mod_cast hpos
    rw [abs_of_nonneg (by linarith)]
    linarith
  · have e : (2 : ℚ) ^ ((k : ℤ) - 53) = ((2 : ℚ) ^ j)⁻¹ := by
      rw [show (k : ℤ) - 53 = -(j : ℤ) by omega, zpow_neg, zpow_natCast]
    rw [e]
    push_cast
    have : (2 : ℚ) ^ j ≠ 0 := by positivity
    field_simp

/-- Division of integers below `2^53` followed by truncation is exact integer division. -/
theorem floor_div_exact (rnd : ℚ → ℚ) (hr : IsNearest rnd) (t d : Nat) (ht : t < 2 ^ 53) (hd : 0 < d)
    (hd' : d ≤ 2 ^ 53) : ⌊rnd ((t : ℚ) / d)⌋ = ((t / d : Nat) : ℤ) := by
  set q := t / d with hq
  set x : ℚ := (t : ℚ) / d with hx
  have hdq : (0 : ℚ) < d := by exact_mod_cast hd
  have hqd : q * d ≤ t := Nat.div_mul_le_self t d
  have hqd' : t + 1 ≤ (q + 1) * d := by
    have := Nat.lt_div_mul_add (a := t) hd
    rw [← hq] at this; nlinarith
  have hqt : q ≤ t := Nat.div_le_self t d
  have x1 : (q : ℚ) ≤ x := by
    rw [hx, le_div_iff₀ hdq]; exact_mod_cast hqd
  have x2 : x + 1 / d ≤ (q : ℚ) + 1 := by
    rw [hx, ← add_div, div_le_iff₀ hdq]; exact_mod_cast hqd'
  have hinv : (0 : ℚ) < 1 / d := by positivity
  rw [Int.floor_eq_iff]
  constructor
  · by_contra hlt
    push Not at hlt
    have := hr.nearest x q (isDouble_nat q (by omega))
    rw [abs_of_nonneg (by push_cast at hlt; linarith), abs_of_nonneg (by linarith)] at this
    push_cast at hlt
    linarith
  · by_contra hge
    push Not at hge
    push_cast at hge
    -- the exponent of q + 1
    obtain ⟨k, hk1, hk2⟩ : ∃ k, q + 1 ≤ 2 ^ k ∧ (k = 0 ∨ 2 ^ (k - 1) ≤ q) := by
      refine ⟨Nat.clog 2 (q + 1), Nat.le_pow_clog (by norm_num) _, ?_⟩
      by_cases h0 : Nat.clog 2 (q + 1) = 0
      · exact Or.inl h0
      · right
        have hq0 : 1 < q + 1 := by
          by_contra h
          exact h0 (Nat.clog_of_right_le_one (by omega) 2)
        have := Nat.pow_pred_clog_lt_self (b := 2) (by norm_num) hq0
        have e : (Nat.clog 2 (q + 1)).pred = Nat.clog 2 (q + 1) - 1 := rfl
        rw [e] at this
        omega
    have hk53 : k ≤ 53 := by
      rcases hk2 with h | h
      · omega
      · by_contra hc
        have : 2 ^ 53 ≤ 2 ^ (k - 1) := Nat.pow_le_pow_right (by norm_num) (by omega)
        omega
    have hsp : d * 2 ^ k < 2 ^ 54 := by
      rcases hk2 with h | h
      · subst h; omega
      · have h1 : d * 2 ^ (k - 1) ≤ t := by
          calc d * 2 ^ (k - 1) ≤ d * q := Nat.mul_le_mul_left _ h
            _ = q * d := Nat.mul_comm _ _
            _ ≤ t := hqd
        by_cases hk0 : k = 0
        · subst hk0; simp at h1; omega
        · have : 2 ^ k = 2 * 2 ^ (k - 1) := by
            rw [← pow_succ']; congr 1; omega
          rw [this]
          calc d * (2 * 2 ^ (k - 1)) = 2 * (d * 2 ^ (k - 1)) := by ring
            _ < 2 * 2 ^ 53 := by omega
            _ = 2 ^ 54 := by norm_num
    have hu : (2 : ℚ) ^ ((k : ℤ) - 53) < 2 * (1 / d) := by
      rw [zpow_sub₀ (by norm_num), zpow_natCast]
      have : ((d * 2 ^ k : Nat) : ℚ) < ((2 ^ 54 : Nat) : ℚ) := by exact_mod_cast hsp
      push_cast at this
      rw [show (2 : ℚ) * (1 / d) = 2 / d by ring, div_lt_div_iff₀ (by norm_num) hdq]
      norm_num at this ⊢
      linarith
    have hup : (0 : ℚ) < (2 : ℚ) ^ ((k : ℤ) - 53) := zpow_pos (by norm_num) _
    have := hr.nearest x _ (isDouble_pred q k hk53 hk1)
    rw [abs_sub_comm x (rnd x), abs_of_nonneg (by linarith)] at this
    have h2 : |x - ((q : ℚ) + 1 - (2 : ℚ) ^ ((k : ℤ) - 53))| < (q : ℚ) + 1 - x := by
      rw [abs_lt]; constructor <;> linarith
    linarith

/-- **C24** (digits).  As long as the loop counter and the divisor are exactly representable, every digit computed in
floating point is the exact digit, whatever the rule for ties. -/
theorem C24_digits_exact (rnd : ℚ → ℚ) (hr : IsNearest rnd) (dims t d : Nat) (ht : t < 2 ^ 53) (hd : 0 < d)
    (hd' : d ≤ 2 ^ 53) : floatDigit rnd dims t d = t / d % dims := by
  unfold floatDigit
  rw [floor_div_exact rnd hr t d ht hd hd', Int.toNat_natCast]

/-- the three digits of the loop `for t in range(dims**3)` of christoffel.py -/
def decode3 (rnd : ℚ → ℚ) (dims t : Nat) : Nat × Nat × Nat :=
  (floatDigit rnd dims t (dims ^ 2), floatDigit rnd dims t dims, t % dims)

/-- the four digits of the loop `for i in range(dims**4)` of riemann.py and weyl.py -/
def decode4 (rnd : ℚ → ℚ) (dims t : Nat) : Nat × Nat × Nat × Nat :=
  (floatDigit rnd dims t (dims ^ 3), floatDigit rnd dims t (dims ^ 2), floatDigit rnd dims t dims, t % dims)

/-- **C24** (three indices).  Every index triple is visited by exactly one value of the loop counter. -/
theorem C24_loop3_bijective (rnd : ℚ → ℚ) (hr : IsNearest rnd) (dims : Nat) (hb : dims ^ 3 ≤ 2 ^ 53)
    (i j k : Nat) (hi : i < dims) (hj : j < dims) (hk : k < dims) :
    ∃! t, t < dims ^ 3 ∧ decode3 rnd dims t = (i, j, k) := by
  have h0 : 0 < dims := by omega
  have hp : ∀ a, a ≤ 3 → 0 < dims ^ a ∧ dims ^ a ≤ 2 ^ 53 := fun a ha =>
    ⟨by positivity, (Nat.pow_le_pow_right h0 ha).trans hb⟩
  have hdec : ∀ t, t < dims ^ 3 → decode3 rnd dims t = (t / dims ^ 2 % dims, t / dims % dims, t % dims) := by
    intro t ht
    unfold decode3
    rw [C24_digits_exact rnd hr dims t _ (by omega) (hp 2 (by omega)).1 (hp 2 (by omega)).2,
      C24_digits_exact rnd hr dims t _ (by omega) h0 (by simpa using (hp 1 (by omega)).2)]
  obtain ⟨f1, f2, f3, f4⟩ := digits3 i j k hi hj hk
  refine ⟨_, ⟨f1, by rw [hdec _ f1, f2, f3, f4]⟩, ?_⟩
  rintro t ⟨ht, hd⟩
  rw [hdec t ht] at hd
  simp only [Prod.mk.injEq] at hd
  obtain ⟨d1, d2, d3⟩ := hd
  have a1 : t / dims ^ 2 < dims := Nat.div_lt_of_lt_mul (by rw [← pow_succ]; exact ht)
  rw [Nat.mod_eq_of_lt a1] at d1
  have e1 := Nat.div_add_mod t dims
  have e2 := Nat.div_add_mod (t / dims) dims
  rw [Nat.div_div_eq_div_mul, ← pow_two, d1, d2] at e2
  rw [← e2, d3] at e1
  rw [← e1]; ring

/-- **C24** (four indices).  Every index quadruple is visited by exactly one value of the loop counter. -/
theorem C24_loop4_bijective (rnd : ℚ → ℚ) (hr : IsNearest rnd) (dims : Nat) (hb : dims ^ 4 ≤ 2 ^ 53)
    (h i j k : Nat) (hh : h < dims) (hi : i < dims) (hj : j < dims) (hk : k < dims) :
    ∃! t, t < dims ^ 4 ∧ decode4 rnd dims t = (h, i, j, k) := by
  have h0 : 0 < dims := by omega
  have hp : ∀ a, a ≤ 4 → 0 < dims ^ a ∧ dims ^ a ≤ 2 ^ 53 := fun a ha =>
    ⟨by positivity, (Nat.pow_le_pow_right h0 ha).trans hb⟩
  have hdec : ∀ t, t < dims ^ 4 → decode4 rnd dims t =
      (t / dims ^ 3 % dims, t / dims ^ 2 % dims, t / dims % dims, t % dims) := by
    intro t ht
    unfold decode4
    rw [C24_digits_exact rnd hr dims t _ (by omega) (hp 3 (by omega)).1 (hp 3 (by omega)).2,
      C24_digits_exact rnd hr dims t _ (by omega) (hp 2 (by omega)).1 (hp 2 (by omega)).2,
      C24_digits_exact rnd hr dims t _ (by omega) h0 (by simpa using (hp 1 (by omega)).2)]
  obtain ⟨f1, f2, f3, f4, f5⟩ := digits4 h i j k hh hi hj hk
  refine ⟨_, ⟨f1, by rw [hdec _ f1, f2, f3, f4, f5]⟩, ?_⟩
  rintro t ⟨ht, hd⟩
  rw [hdec t ht] at hd
  simp only [Prod.mk.injEq] at hd
  obtain ⟨d0, d1, d2, d3⟩ := hd
  have a1 : t / dims ^ 3 < dims := Nat.div_lt_of_lt_mul (by rw [← pow_succ]; exact ht)
  rw [Nat.mod_eq_of_lt a1] at d0
  have e1 := Nat.div_add_mod t dims
  have e2 := Nat.div_add_mod (t / dims) dims
  have e3 := Nat.div_add_mod (t / dims ^ 2) dims
  rw [Nat.div_div_eq_div_mul, ← pow_succ, d0, d1] at e3
  rw [Nat.div_div_eq_div_mul, ← pow_two, d2, ← e3] at e2
  rw [← e2, d3] at e1
  rw [← e1]; ring

/-- **C24** (no collision).  Distinct loop counters decode to distinct index tuples. -/
theorem C24_no_collision (rnd : ℚ → ℚ) (hr : IsNearest rnd) (dims : Nat) (hb : dims ^ 4 ≤ 2 ^ 53)
    (t u : Nat) (ht : t < dims ^ 4) (hu : u < dims ^ 4)
    (h : decode4 rnd dims t = decode4 rnd dims u) : t = u := by
  have h0 : 0 < dims := by
    rcases Nat.eq_zero_or_pos dims with rfl | h
    · simp at ht
    · exact h
  obtain ⟨v, -, hv⟩ := C24_loop4_bijective rnd hr dims hb (floatDigit rnd dims u (dims ^ 3))
    (floatDigit rnd dims u (dims ^ 2)) (floatDigit rnd dims u dims) (u % dims) (Nat.mod_lt _ h0)
    (Nat.mod_lt _ h0) (Nat.mod_lt _ h0) (Nat.mod_lt _ h0)
  rw [hv t ⟨ht, h⟩, hv u ⟨hu, rfl⟩]

/-- The finite doubles are a finite set, so a rounding to nearest exists: the hypothesis of C24 is satisfiable. -/
theorem isNearest_exists : ∃ rnd, IsNearest rnd := by
  have hfin : {x | IsDouble x}.Finite := by
    apply Set.Finite.subset (((Set.finite_Ioo (-(2 : ℤ) ^ 53) (2 ^ 53)).prod
      (Set.finite_Icc (-1074 : ℤ) 971)).image fun p : ℤ × ℤ => (p.1 : ℚ) * (2 : ℚ) ^ p.2)
    rintro x ⟨m, e, h1, h2, h3, rfl⟩
    exact ⟨(m, e), ⟨abs_lt.mp h1, h2, h3⟩, rfl⟩
  have hne : {x | IsDouble x}.Nonempty := ⟨((0 : Nat) : ℚ), isDouble_nat 0 (by norm_num)⟩
  have h : ∀ x : ℚ, ∃ y, IsDouble y ∧ ∀ z, IsDouble z → |x - y| ≤ |x - z| := by
    intro x
    obtain ⟨y, hy, hmin⟩ := Set.exists_min_image _ (fun y => |x - y|) hfin hne
    exact ⟨y, hy, hmin⟩
  choose f hf1 hf2 using h
  exact ⟨f, hf1, hf2⟩

/-- four dimensions: `4^4 = 256` -/
example : ∃ rnd, IsNearest rnd ∧ ∃! t, t < 4 ^ 4 ∧ decode4 rnd 4 t = (3, 1, 2, 0) :=
  isNearest_exists.imp fun rnd h => ⟨h, C24_loop4_bijective rnd h 4 (by norm_num) 3 1 2 0 (by norm_num)
    (by norm_num) (by norm_num) (by norm_num)⟩

end Einpy
