import Mathlib.Analysis.SpecialFunctions.Pow.Real
import Mathlib.Topology.Order.IntermediateValue
import Mathlib.Analysis.SpecialFunctions.Pow.Complex
import Mathlib.Algebra.Order.Floor.Ring
import Mathlib.Algebra.BigOperators.Fin
import Verif.Coord.Model

/-!
# `rays/shadow.py` (C57, C80, C81)

Floating-point numbers are idealised as real numbers; a `nan` or `inf` is the tag `notANumber`, kept inside the lists as
numpy does.  The root finder `scipy.optimize.newton` and the nodes and weights of `scipy.integrate.fixed_quad` are
parameters.
-/

namespace Einpy.Misc
open Einpy.Coord

/-- `np.linspace(a, b, n)` -/
noncomputable def linspace (a b : ℝ) (n : ℕ) : List ℝ :=
  if n = 1 then [a] else (List.range n).map fun i => a + (i:ℕ) * ((b - a) / ((n:ℝ) - 1))

/-- shadow.py:25 `self.b_crit` (its value; the mass is the value in kg). -/
noncomputable def bCrit (M : ℝ) : ℝ := 3 * Real.sqrt 3 * M

/-- shadow.py:46-51 `_root_equation`, at a complex argument.  `np.emath.sqrt` is the principal square root; `int` truncates
towards zero. -/
noncomputable def rootEquation (M : ℝ) (r : ℂ) (i : ℝ) : ℂ :=
  r / (1 - (2 * ((if 0 ≤ M then ⌊M⌋ else ⌈M⌉ : ℤ) : ℂ) / r)) ^ (1 / 2 : ℂ) - i

/-- shadow.py:58-60, shadow.py:72-74: `KRKText`. -/
noncomputable def krktExt (GTT GRR r b : ℝ) : Py ℝ := do
  Num.npSqrt ((← npDiv GTT GRR) * (1 - (← npDiv (b ^ 2 * GTT) (r ^ 2))))

/-- shadow.py:53-65 `_intensity_blue_sch`. -/
noncomputable def intensityBlue (M r b : ℝ) : Py ℝ := do
  let GTT := 1 - (← npDiv (2 * M) r)
  let GRR ← npDiv 1 (1 - (← npDiv (2 * M) r))
  let K ← krktExt GTT GRR r b
  let Gblue ← npDiv 1 ((← npDiv 1 GTT) - K * (← npDiv GRR GTT) * (← Num.npSqrt (← npDiv (1 - GTT) (GTT * GRR))))
  return -(Gblue ^ 3) * (← npDiv GTT (r ^ 2)) * (← npDiv 1 K)

/-- shadow.py:67-79 `_intensity_red_sch`. -/
noncomputable def intensityRed (M r b : ℝ) : Py ℝ := do
  let GTT := 1 - (← npDiv (2 * M) r)
  let GRR ← npDiv 1 (1 - (← npDiv (2 * M) r))
  let K ← krktExt GTT GRR r b
  let Gred ← npDiv 1 ((← npDiv 1 GTT) + K * (← npDiv GRR GTT) * (← Num.npSqrt (← npDiv (1 - GTT) (GTT * GRR))))
  return (Gred ^ 3) * (← npDiv GTT (r ^ 2)) * (← npDiv 1 K)

/-- A Gauss rule on [-1, 1]: nodes in the interior, positive weights (the default of
`scipy.integrate.fixed_quad` has five nodes). -/
structure Rule where
  n : ℕ
  x : Fin n → ℝ
  w : Fin n → ℝ
  inside : ∀ i, -1 < x i ∧ x i < 1
  w_pos : ∀ i, 0 < w i
  n_pos : 0 < n

/-- A sum of numbers some of which may be `nan`. -/
noncomputable def pySum (l : List (Py ℝ)) : Py ℝ := l.foldr (fun x s => do return (← x) + (← s)) (.ok 0)

/-- `fixed_quad(f, a, b)[0]` -/
noncomputable def fixedQuad (q : Rule) (f : ℝ → Py ℝ) (a b : ℝ) : Py ℝ := do
  let s ← pySum (List.ofFn fun i => do return q.w i * (← f ((b - a) * (q.x i + 1) / 2 + a)))
  return (b - a) / 2 * s

/-- A `Shadow` object. -/
structure Shadow where
  M : ℝ
  fov : ℝ
  b : List ℝ
  z : List (ℝ × ℝ)
  bfin : List ℝ
  b2 : List ℝ
  intensity : List (Py ℝ)
  fb1 : List ℝ
  fb2 : List ℝ

/-- shadow.py:30-34: the loop over the impact parameters, `newton` being the root finder's answer for each of them (it may
raise); an answer is kept when its imaginary part is zero. -/
noncomputable def turningPoints (newton : ℝ → Py ℂ) : List ℝ → Py (List (ℝ × ℝ))
  | [] => .ok []
  | i :: l => do
    let root ← newton i
    let rest ← turningPoints newton l
    if root.im = 0 then return (i, root.re) :: rest else return rest

/-- shadow.py:81-97 `_intensity`. -/
noncomputable def intensityAbove (q : Rule) (M fov : ℝ) (z : List (ℝ × ℝ)) : List (Py ℝ) :=
  z.map fun p => do
    let val1 ← fixedQuad q (fun r => intensityBlue M r p.1) fov p.2
    let val2 ← fixedQuad q (fun r => intensityRed M r p.1) p.2 fov
    return val1 + val2

/-- shadow.py:99-113 `_intensity_from_event_horizon`, given `self.b2`. -/
noncomputable def intensityBelow (q : Rule) (M fov : ℝ) (b2 : List ℝ) : List (Py ℝ) :=
  b2.map fun b => fixedQuad q (fun r => intensityRed M r b) (2 * M) fov

/-- shadow.py:18-44: the constructor.  (The conversion of the arguments to kg and km is not modelled.) -/
noncomputable def Shadow.new (newton : ℝ → Py ℂ) (q : Rule) (M : ℝ) (n_rays : ℕ) (fov limit : ℝ) : Py Shadow := do
  let b := linspace (bCrit M) fov n_rays
  let z ← turningPoints newton b
  let bfin := z.map Prod.fst
  let k0 := intensityAbove q M fov z
  let b2 := linspace limit (bCrit M) bfin.length
  let k1 := intensityBelow q M fov b2
  return ⟨M, fov, b, z, bfin, b2, k1 ++ k0, b2 ++ bfin, b2.map (fun x => -x) ++ bfin.map (fun x => -x)⟩

/-! ## Specification -/

/-- The impact parameter of a light ray in the Schwarzschild geometry whose closest approach is `r` (geometrized mass
`M`). -/
noncomputable def impact (M r : ℝ) : ℝ := r / Real.sqrt (1 - 2 * M / r)

/-! ## C57 -/

theorem lapse_pos' {M r : ℝ} (hM : 0 ≤ M) (hr : 2 * M < r) : 0 < 1 - 2 * M / r := by
  have : 0 < r := by linarith
  rw [sub_pos, div_lt_one this]; exact hr

theorem impact_sq {M r : ℝ} (hM : 0 ≤ M) (hr : 2 * M < r) : impact M r ^ 2 = r ^ 3 / (r - 2 * M) := by
  have hs := lapse_pos' hM hr
  have h0 : r ≠ 0 := by linarith
  have h1 : r - 2 * M ≠ 0 := by linarith
  rw [impact, div_pow, Real.sq_sqrt hs.le, show 1 - 2 * M / r = (r - 2 * M) / r by field_simp]
  field_simp

theorem impact_pos {M r : ℝ} (hM : 0 ≤ M) (hr : 2 * M < r) : 0 < impact M r :=
  div_pos (by linarith) (Real.sqrt_pos.2 (lapse_pos' hM hr))

theorem bCrit_sq (M : ℝ) : bCrit M ^ 2 = 27 * M ^ 2 := by
  have := Real.sq_sqrt (show (0:ℝ) ≤ 3 by norm_num)
  rw [bCrit]; linear_combination 9 * M ^ 2 * this

theorem bCrit_pos {M : ℝ} (hM : 0 < M) : 0 < bCrit M := by
  have := Real.sqrt_pos.2 (show (0:ℝ) < 3 by norm_num)
  unfold bCrit; positivity

theorem impact_diff {M r : ℝ} (hM : 0 < M) (hr : 2 * M < r) :
    impact M r ^ 2 - bCrit M ^ 2 = (r - 3 * M) ^ 2 * (r + 6 * M) / (r - 2 * M) := by
  have h1 : r - 2 * M ≠ 0 := by linarith
  rw [impact_sq hM.le hr, bCrit_sq]; field_simp; ring

/-- **C57.** The critical impact parameter of a shadow is the least impact parameter of a ray that does not fall in, and it
is that of the photon sphere r = 3M only. -/
theorem C57_critical {M : ℝ} (hM : 0 < M) :
    IsLeast {b | ∃ r, 2 * M < r ∧ b = impact M r} (bCrit M) ∧
    ∀ r, 2 * M < r → (impact M r = bCrit M ↔ r = 3 * M) := by
  have key : ∀ r, 2 * M < r → (impact M r = bCrit M ↔ r = 3 * M) := by
    intro r hr
    have h1 : 0 < r - 2 * M := by linarith
    have hd := impact_diff hM hr
    constructor
    · intro h
      rw [h, sub_self] at hd
      have h2 := (div_eq_zero_iff.1 hd.symm).resolve_right h1.ne'
      rcases mul_eq_zero.1 h2 with h3 | h3
      · have := pow_eq_zero_iff (two_ne_zero) |>.1 h3; linarith
      · linarith
    · rintro rfl
      have : impact M (3 * M) ^ 2 = bCrit M ^ 2 := by
        have e : (3 * M - 3 * M) ^ 2 * (3 * M + 6 * M) / (3 * M - 2 * M) = 0 := by ring
        rw [e] at hd; linarith
      exact (sq_eq_sq₀ (impact_pos hM.le hr).le (bCrit_pos hM).le).1 this
  refine ⟨⟨⟨3 * M, by linarith, ((key _ (by linarith)).2 rfl).symm⟩, ?_⟩, key⟩
  rintro b ⟨r, hr, rfl⟩
  have h1 : 0 < r - 2 * M := by linarith
  have hd := impact_diff hM hr
  have h2 : 0 ≤ (r - 3 * M) ^ 2 * (r + 6 * M) / (r - 2 * M) := by
    have : 0 ≤ r + 6 * M := by linarith
    positivity
  exact (sq_le_sq₀ (bCrit_pos hM).le (impact_pos hM.le hr).le).1 (by linarith)

example : (0:ℝ) < 1 ∧ 2 * (1:ℝ) < 4 := by norm_num

theorem impact_ge {M r : ℝ} (hM : 0 ≤ M) (hr : 2 * M < r) : r ≤ impact M r := by
  have hs := lapse_pos' hM hr
  have h0 : 0 < r := by linarith
  have h1 : Real.sqrt (1 - 2 * M / r) ≤ 1 := by
    have : 0 ≤ 2 * M / r := by positivity
    rw [Real.sqrt_le_left (by norm_num)]
    linarith
  unfold impact
  rw [le_div_iff₀ (Real.sqrt_pos.2 hs)]
  nlinarith

theorem cubic_pos {M r s : ℝ} (hM : 0 < M) (hr : 3 * M ≤ r) (hs : 3 * M ≤ s) (hne : r ≠ s) :
    0 < r * s * (r + s) - 2 * M * (r ^ 2 + r * s + s ^ 2) := by
  obtain ⟨p, rfl⟩ : ∃ p, r = p + 3 * M := ⟨r - 3 * M, by ring⟩
  obtain ⟨q, rfl⟩ : ∃ q, s = q + 3 * M := ⟨s - 3 * M, by ring⟩
  have hp : 0 ≤ p := by linarith
  have hq : 0 ≤ q := by linarith
  have hpq : 0 < p + q := by
    rcases hp.lt_or_eq with h | h
    · linarith
    · rcases hq.lt_or_eq with h' | h'
      · linarith
      · exact absurd (by rw [← h, ← h']) hne
  have hexp : (p + 3 * M) * (q + 3 * M) * ((p + 3 * M) + (q + 3 * M)) -
      2 * M * ((p + 3 * M) ^ 2 + (p + 3 * M) * (q + 3 * M) + (q + 3 * M) ^ 2) =
      p * q * (p + q) + M * (p ^ 2 + q ^ 2 + 10 * p * q) + 9 * M ^ 2 * (p + q) := by ring
  rw [hexp]
  have b1 : 0 ≤ p * q * (p + q) := by positivity
  have b2 : 0 ≤ M * (p ^ 2 + q ^ 2 + 10 * p * q) := by positivity
  have b3 : 0 < 9 * M ^ 2 * (p + q) := by positivity
  linarith

/-- **C57.** A ray has a turning point outside the horizon exactly when its impact parameter is at least the critical one;
it then has one at or outside the photon sphere, and only one there.  So the two families of rays the class treats
separately are the scattered and the captured ones. -/
theorem C57_turning_points {M : ℝ} (hM : 0 < M) (b : ℝ) :
    ((∃ r, 2 * M < r ∧ impact M r = b) ↔ bCrit M ≤ b) ∧
    (bCrit M ≤ b → ∃! r, 3 * M ≤ r ∧ impact M r = b) := by
  have hex : bCrit M ≤ b → ∃ r, 3 * M ≤ r ∧ impact M r = b := by
    intro hb
    have hle : 3 * M ≤ max b (3 * M) := le_max_right _ _
    have hcont : ContinuousOn (impact M) (Set.Icc (3 * M) (max b (3 * M))) := by
      intro r hr
      have hr2 : 2 * M < r := by linarith [hr.1]
      have h0 : r ≠ 0 := by linarith
      have hs := Real.sqrt_pos.2 (lapse_pos' hM.le hr2)
      apply ContinuousAt.continuousWithinAt
      unfold impact
      exact continuousAt_id.div (Real.continuous_sqrt.continuousAt.comp
        (continuousAt_const.sub (continuousAt_const.div continuousAt_id h0))) hs.ne'
    have h3 : impact M (3 * M) = bCrit M := ((C57_critical hM).2 _ (by linarith)).2 rfl
    have h4 : b ≤ impact M (max b (3 * M)) := le_trans (le_max_left _ _) (impact_ge hM.le (by linarith))
    obtain ⟨r, hr, hr'⟩ := intermediate_value_Icc hle hcont ⟨by rw [h3]; exact hb, h4⟩
    exact ⟨r, hr.1, hr'⟩
  refine ⟨⟨fun ⟨r, hr, h⟩ => (C57_critical hM).1.2 ⟨r, hr, h.symm⟩, fun hb => ?_⟩, fun hb => ?_⟩
  · obtain ⟨r, h1, h2⟩ := hex hb; exact ⟨r, by linarith, h2⟩
  · obtain ⟨r, h1, h2⟩ := hex hb
    refine ⟨r, ⟨h1, h2⟩, fun s ⟨k1, k2⟩ => ?_⟩
    have e1 := impact_sq hM.le (show 2 * M < r by linarith)
    have e2 := impact_sq hM.le (show 2 * M < s by linarith)
    rw [h2] at e1; rw [k2, e1] at e2
    have d1 : r - 2 * M ≠ 0 := by linarith
    have d2 : s - 2 * M ≠ 0 := by linarith
    rw [div_eq_div_iff d1 d2] at e2
    have hfac : (r - s) * (r * s * (r + s) - 2 * M * (r ^ 2 + r * s + s ^ 2)) = 0 := by linear_combination e2
    rcases mul_eq_zero.1 hfac with h | h
    · linarith
    · by_contra hne
      exact (cubic_pos hM h1 k1 (fun h => hne h.symm)).ne' h

/-- Outside the photon sphere the impact parameter grows with the distance of closest approach. -/
theorem impact_lt {M r s : ℝ} (hM : 0 < M) (h3 : 3 * M ≤ r) (hs : r < s) : impact M r < impact M s := by
  have hr2 : 2 * M < r := by linarith
  have hs2 : 2 * M < s := by linarith
  refine (sq_lt_sq₀ (impact_pos hM.le hr2).le (impact_pos hM.le hs2).le).1 ?_
  rw [impact_sq hM.le hr2, impact_sq hM.le hs2, div_lt_div_iff₀ (by linarith) (by linarith)]
  have := cubic_pos hM (le_trans h3 hs.le) h3 hs.ne'
  nlinarith

/-! ## C80 -/

/-- The mass the root equation uses. -/
noncomputable def intMass (M : ℝ) : ℝ := ((⌊M⌋ : ℤ) : ℝ)

/-- A real zero of the coded equation, for a positive impact parameter, is a turning point for the truncated mass. -/
theorem root_real {M r b : ℝ} (hM : 0 ≤ M) (hb : 0 < b) (h : rootEquation M (r : ℂ) b = 0) :
    2 * intMass M < r ∧ impact (intMass M) r = b := by
  have hm0 : 0 ≤ intMass M := by unfold intMass; exact_mod_cast Int.floor_nonneg.2 hM
  unfold rootEquation at h
  rw [if_pos hM] at h
  have hcast : (1 - (2 * ((⌊M⌋ : ℤ) : ℂ) / (r : ℂ))) = (((1 - 2 * intMass M / r : ℝ)) : ℂ) := by
    unfold intMass; push_cast; ring
  rw [hcast, sub_eq_zero] at h
  set L : ℝ := 1 - 2 * intMass M / r with hL
  have hr0 : r ≠ 0 := by
    rintro rfl
    simp at h
    exact hb.ne' (by exact_mod_cast h.symm)
  rcases lt_trichotomy L 0 with hneg | hzero | hpos
  · -- purely imaginary quotient
    exfalso
    have h1 : ((r:ℂ) / (L : ℂ) ^ (1 / 2 : ℂ)) ^ 2 = ((b:ℝ) : ℂ) ^ 2 := by rw [h]
    rw [div_pow, ← Complex.cpow_nat_mul] at h1
    norm_num at h1
    have h2 : ((r ^ 2 / L : ℝ) : ℂ) = ((b ^ 2 : ℝ) : ℂ) := by push_cast; exact h1
    have h3 : r ^ 2 / L = b ^ 2 := by exact_mod_cast h2
    have h4 : r ^ 2 / L < 0 := div_neg_of_pos_of_neg (by positivity) hneg
    have h5 : 0 < b ^ 2 := by positivity
    linarith
  · exfalso
    rw [hzero] at h
    simp at h
    exact hb.ne' (by exact_mod_cast h.symm)
  · have h1 : (L : ℂ) ^ (1 / 2 : ℂ) = ((Real.sqrt L : ℝ) : ℂ) := by
      rw [Real.sqrt_eq_rpow, Complex.ofReal_cpow hpos.le]; push_cast; rfl
    rw [h1] at h
    have h2 : r / Real.sqrt L = b := by exact_mod_cast h
    have hs := Real.sqrt_pos.2 hpos
    have hr : 0 < r := by
      have : r = b * Real.sqrt L := by field_simp at h2; linarith
      rw [this]; positivity
    refine ⟨?_, h2⟩
    rw [hL, sub_pos, div_lt_one hr] at hpos
    exact hpos

/-- Conversely every turning point for the truncated mass is a zero of the coded equation. -/
theorem root_of_impact {M r b : ℝ} (hM : 0 ≤ M) (hr : 2 * intMass M < r) (h : impact (intMass M) r = b) :
    rootEquation M (r : ℂ) b = 0 := by
  have hm0 : 0 ≤ intMass M := by unfold intMass; exact_mod_cast Int.floor_nonneg.2 hM
  have hr0 : 0 < r := by linarith
  have hL : 0 ≤ 1 - 2 * intMass M / r := by
    rw [sub_nonneg, div_le_one hr0]; exact hr.le
  unfold rootEquation
  rw [if_pos hM]
  have hcast : (1 - (2 * ((⌊M⌋ : ℤ) : ℂ) / (r : ℂ))) = (((1 - 2 * intMass M / r : ℝ)) : ℂ) := by
    unfold intMass; push_cast; ring
  have h2 : (((1 - 2 * intMass M / r : ℝ)) : ℂ) ^ (1 / 2 : ℂ) = ((Real.sqrt (1 - 2 * intMass M / r) : ℝ) : ℂ) := by
    rw [Real.sqrt_eq_rpow, Complex.ofReal_cpow hL]; push_cast; rfl
  rw [hcast, h2, ← h, impact]
  push_cast
  ring

/-- For an impact parameter not below the critical one, every zero of the coded equation is a real number. -/
theorem root_is_real {M b : ℝ} (hM : 1 ≤ M) (hb : bCrit (intMass M) ≤ b) {z : ℂ} (h : rootEquation M z b = 0) :
    ∃ r : ℝ, z = r := by
  have hM0 : 0 ≤ M := by linarith
  have hm : 0 < intMass M := by
    unfold intMass; exact_mod_cast Int.floor_pos.2 hM
  have hb0 : 0 < b := by
    refine lt_of_lt_of_le ?_ hb
    unfold bCrit; positivity
  obtain ⟨r, ⟨hr3, hrb⟩, -⟩ := (C57_turning_points hm b).2 hb
  have hr2 : 2 * intMass M < r := by linarith
  have hsq := impact_sq hm.le hr2
  rw [hrb] at hsq
  generalize hmm : intMass M = m at *
  have hd : r - 2 * m ≠ 0 := by linarith
  have hcub : r ^ 3 = b ^ 2 * (r - 2 * m) := by rw [hsq]; field_simp
  unfold rootEquation at h
  rw [if_pos hM0, sub_eq_zero] at h
  have hmc : ((⌊M⌋ : ℤ) : ℂ) = (m : ℂ) := by rw [← hmm]; unfold intMass; push_cast; rfl
  rw [hmc] at h
  generalize hw : (1 - (2 * (m : ℂ) / z)) ^ (1 / 2 : ℂ) = w at h
  have hbC : (b : ℂ) ≠ 0 := by exact_mod_cast hb0.ne'
  have hz : z ≠ 0 := by
    rintro rfl
    rw [zero_div] at h; exact hbC h.symm
  have hw0 : w ≠ 0 := by
    rintro rfl
    rw [div_zero] at h; exact hbC h.symm
  have hw2 : w ^ 2 = 1 - 2 * (m : ℂ) / z := by
    rw [← hw, ← Complex.cpow_nat_mul]; norm_num
  have hzw : z = b * w := by rw [← h]; field_simp
  have hz3 : z ^ 3 = (b:ℂ) ^ 2 * (z - 2 * m) := by
    have h1 : z * w ^ 2 = z - 2 * m := by rw [hw2]; field_simp
    rw [← h1]
    calc z ^ 3 = z * (z) ^ 2 := by ring
      _ = z * (b * w) ^ 2 := by rw [← hzw]
      _ = _ := by ring
  have hcubC : (r:ℂ) ^ 3 = (b:ℂ) ^ 2 * (r - 2 * m) := by exact_mod_cast hcub
  have hprod : (z - r) * (z ^ 2 + z * r + r ^ 2 - (b:ℂ) ^ 2) = 0 := by linear_combination hz3 - hcubC
  rcases mul_eq_zero.mp hprod with h1 | h1
  · exact ⟨r, sub_eq_zero.mp h1⟩
  · have hdpos : 0 ≤ 4 * b ^ 2 - 3 * r ^ 2 := by
      rw [hsq]
      have : 4 * (r ^ 3 / (r - 2 * m)) - 3 * r ^ 2 = r ^ 2 * (r + 6 * m) / (r - 2 * m) := by field_simp; ring
      rw [this]
      apply div_nonneg
      · have : 0 < r := by linarith
        positivity
      · linarith
    have hs : ((Real.sqrt (4 * b ^ 2 - 3 * r ^ 2) : ℝ) : ℂ) ^ 2 = 4 * (b:ℂ) ^ 2 - 3 * (r:ℂ) ^ 2 := by
      have := Real.sq_sqrt hdpos
      exact_mod_cast this
    have h2 : (2 * z + r - (Real.sqrt (4 * b ^ 2 - 3 * r ^ 2) : ℝ)) * (2 * z + r + (Real.sqrt (4 * b ^ 2 - 3 * r ^ 2) : ℝ)) = 0 := by
      linear_combination 4 * h1 - hs
    rcases mul_eq_zero.mp h2 with h3 | h3
    · refine ⟨(Real.sqrt (4 * b ^ 2 - 3 * r ^ 2) - r) / 2, ?_⟩
      push_cast
      linear_combination h3 / 2
    · refine ⟨(-Real.sqrt (4 * b ^ 2 - 3 * r ^ 2) - r) / 2, ?_⟩
      push_cast
      linear_combination h3 / 2

/-- **C80, what holds.** If the mass is a whole number (of kilograms) the real zeros of the coded equation are exactly the
turning points of the ray: radii `r` outside the horizon with impact parameter `b`; for the rays `Shadow` sends out
(`b` not below the critical value) there are no other complex zeros either, and exactly one zero is a closest approach
from outside (at or beyond the photon sphere).  (Missing: masses that are not whole numbers, see `C80_refuted`.) -/
theorem C80_turning_point_partial {M b : ℝ} (hM : 0 < M) (hint : ∃ n : ℕ, M = n) (hb : 0 < b) :
    (∀ r : ℝ, rootEquation M (r : ℂ) b = 0 ↔ 2 * M < r ∧ impact M r = b) ∧
    (bCrit M ≤ b → ∀ z : ℂ, rootEquation M z b = 0 ↔ ∃ r : ℝ, z = r ∧ 2 * M < r ∧ impact M r = b) ∧
    (bCrit M ≤ b → ∃! r : ℝ, rootEquation M (r : ℂ) b = 0 ∧ 3 * M ≤ r) := by
  obtain ⟨n, rfl⟩ := hint
  have e : intMass (n:ℝ) = n := by simp [intMass]
  have h1 : ∀ r : ℝ, rootEquation n (r : ℂ) b = 0 ↔ 2 * (n:ℝ) < r ∧ impact n r = b := by
    intro r
    constructor
    · intro h
      have := root_real hM.le hb h
      rwa [e] at this
    · rintro ⟨h1, h2⟩
      exact root_of_impact hM.le (by rwa [e]) (by rwa [e])
  refine ⟨h1, fun hc z => ⟨fun h => ?_, ?_⟩, fun hc => ?_⟩
  · obtain ⟨r, rfl⟩ := root_is_real (by exact_mod_cast Nat.one_le_iff_ne_zero.2 (by rintro rfl; simp at hM)) (by rwa [e]) h
    exact ⟨r, rfl, (h1 r).1 h⟩
  · rintro ⟨r, rfl, h⟩
    exact (h1 r).2 h
  · obtain ⟨r, ⟨h3, hr⟩, hu⟩ := (C57_turning_points hM b).2 hc
    refine ⟨r, ⟨(h1 r).2 ⟨by linarith, hr⟩, h3⟩, ?_⟩
    rintro r' ⟨h, h'⟩
    exact hu r' ⟨h', ((h1 r').1 h).2⟩

/-- The hypotheses are met: M = 1, r = 4, b = 4√2. -/
example : rootEquation 1 ((4:ℝ) : ℂ) (impact 1 4) = 0 := by
  unfold rootEquation impact
  rw [if_pos (by norm_num)]
  have h1 : (1 - (2 * ((⌊(1:ℝ)⌋ : ℤ) : ℂ) / ((4:ℝ):ℂ))) = ((1 - 2 * 1 / 4 : ℝ) : ℂ) := by
    simp
  have h2 : (((1 - 2 * 1 / 4 : ℝ)) : ℂ) ^ (1 / 2 : ℂ) = ((Real.sqrt (1 - 2 * 1 / 4) : ℝ) : ℂ) := by
    rw [Real.sqrt_eq_rpow, Complex.ofReal_cpow (by norm_num)]; push_cast; rfl
  rw [h1, h2]; push_cast; ring

/-- **C80 is violated.** For every mass that is not a whole number and every ray, no real root of the coded equation is a
turning point of that ray: the mass is truncated. -/
theorem C80_refuted {M r b : ℝ} (hM : 0 < M) (hint : ¬ ∃ n : ℤ, M = n) (hb : 0 < b)
    (h : rootEquation M (r : ℂ) b = 0) : impact M r ≠ b := by
  obtain ⟨h1, h2⟩ := root_real hM.le hb h
  have hm0 : 0 ≤ intMass M := by unfold intMass; exact_mod_cast Int.floor_nonneg.2 hM.le
  have hlt : intMass M < M := lt_of_le_of_ne (Int.floor_le M) (fun e => hint ⟨⌊M⌋, e.symm⟩)
  have hr : 0 < r := by linarith
  intro h3
  by_cases hout : 2 * M < r
  · have e1 := impact_sq hm0 h1
    have e2 := impact_sq hM.le hout
    rw [h2] at e1; rw [h3, e1] at e2
    have d1 : r - 2 * intMass M ≠ 0 := by linarith
    have d2 : r - 2 * M ≠ 0 := by linarith
    rw [div_eq_div_iff d1 d2] at e2
    have : r ^ 3 * (2 * M - 2 * intMass M) = 0 := by linear_combination -e2
    rcases mul_eq_zero.1 this with h | h
    · exact (pow_pos hr 3).ne' h
    · linarith
  · have hle : 1 - 2 * M / r ≤ 0 := by
      rw [sub_nonpos, one_le_div hr]; linarith
    rw [impact, Real.sqrt_eq_zero_of_nonpos hle, div_zero] at h3
    exact hb.ne h3

/-- It does happen: with M = 3/2 the ray with b = 4√2 gets the root 4, although the true closest approach is not 4. -/
example : (¬ ∃ n : ℤ, (3 / 2 : ℝ) = n) ∧ rootEquation (3 / 2) ((4:ℝ) : ℂ) (impact 1 4) = 0 := by
  constructor
  · rintro ⟨n, hn⟩
    have : (3:ℝ) = 2 * n := by linarith
    have : (3:ℤ) = 2 * n := by exact_mod_cast this
    omega
  · have hf : ⌊(3 / 2 : ℝ)⌋ = 1 := by rw [Int.floor_eq_iff]; norm_num
    unfold rootEquation impact
    rw [if_pos (by norm_num), hf]
    have h1 : (1 - (2 * ((1 : ℤ) : ℂ) / ((4:ℝ):ℂ))) = ((1 - 2 * 1 / 4 : ℝ) : ℂ) := by simp
    have h2 : (((1 - 2 * 1 / 4 : ℝ)) : ℂ) ^ (1 / 2 : ℂ) = ((Real.sqrt (1 - 2 * 1 / 4) : ℝ) : ℂ) := by
      rw [Real.sqrt_eq_rpow, Complex.ofReal_cpow (by norm_num)]; push_cast; rfl
    rw [h1, h2]; push_cast; ring

/-! ## C81 -/

theorem linspace_length (a b : ℝ) (n : ℕ) : (linspace a b n).length = n := by
  unfold linspace; split_ifs with h
  · rw [h]; rfl
  · rw [List.length_map, List.length_range]

/-- The points of `np.linspace(a, b, n)` lie between `a` and `b`. -/
theorem linspace_mem {a b : ℝ} (hab : a ≤ b) {n : ℕ} {x : ℝ} (hx : x ∈ linspace a b n) : a ≤ x ∧ x ≤ b := by
  unfold linspace at hx
  split_ifs at hx with h
  · rw [List.mem_singleton] at hx; rw [hx]; exact ⟨le_rfl, hab⟩
  · rw [List.mem_map] at hx
    obtain ⟨i, hi, rfl⟩ := hx
    rw [List.mem_range] at hi
    have hn : 2 ≤ n := by omega
    have hn1 : (0:ℝ) < (n:ℝ) - 1 := by
      have : (2:ℝ) ≤ n := by exact_mod_cast hn
      linarith
    have hi1 : (i:ℝ) ≤ (n:ℝ) - 1 := by
      have : ((i + 1 : ℕ):ℝ) ≤ n := by exact_mod_cast hi
      push_cast at this; linarith
    have hd : 0 ≤ b - a := by linarith
    constructor
    · have : 0 ≤ (i:ℝ) * ((b - a) / ((n:ℝ) - 1)) := by positivity
      linarith
    · have h1 : (i:ℝ) * ((b - a) / ((n:ℝ) - 1)) ≤ ((n:ℝ) - 1) * ((b - a) / ((n:ℝ) - 1)) :=
        mul_le_mul_of_nonneg_right hi1 (by positivity)
      rw [mul_div_cancel₀ _ hn1.ne'] at h1
      linarith

/-- The rays kept by the loop are exactly those with a real root, in the given order, each with its root. -/
theorem turningPoints_spec {newton : ℝ → Py ℂ} {l : List ℝ} {z : List (ℝ × ℝ)} (h : turningPoints newton l = .ok z) :
    ∃ root : ℝ → ℂ, (∀ i ∈ l, newton i = .ok (root i)) ∧
      z = (l.filter fun i => (root i).im = 0).map fun i => (i, (root i).re) := by
  induction l generalizing z with
  | nil => exact ⟨fun _ => 0, fun i hi => absurd hi List.not_mem_nil, (Except.ok.inj h).symm⟩
  | cons a l ih =>
    unfold turningPoints at h
    simp only [bind, Except.bind, pure, Except.pure] at h
    cases h1 : newton a with
    | error e => rw [h1] at h; cases h
    | ok w =>
      rw [h1] at h
      simp only at h
      cases h2 : turningPoints newton l with
      | error e => rw [h2] at h; cases h
      | ok rest =>
        rw [h2] at h
        simp only at h
        obtain ⟨root, k1, k2⟩ := ih h2
        have hroot : ∀ i ∈ a :: l, newton i = .ok (if i = a then w else root i) := by
          intro i hi
          by_cases hia : i = a
          · rw [if_pos hia, hia, h1]
          · rw [if_neg hia]; exact k1 i ((List.mem_cons.1 hi).resolve_left hia)
        refine ⟨fun i => if i = a then w else root i, hroot, ?_⟩
        have hagree : ∀ i ∈ l, (if i = a then w else root i) = root i := by
          intro i hi
          by_cases hia : i = a
          · rw [if_pos hia]
            have := k1 i hi
            rw [hia, h1] at this
            rw [hia]; exact Except.ok.inj this
          · rw [if_neg hia]
        have e1 : (l.filter fun i => ((if i = a then w else root i).im = 0 : Prop)) = l.filter fun i => (root i).im = 0 := by
          refine List.filter_congr fun i hi => ?_
          rw [hagree i hi]
        have e2 : (l.filter fun i => (root i).im = 0).map (fun i => (i, (if i = a then w else root i).re)) = rest := by
          rw [k2]
          refine List.map_congr_left fun i hi => ?_
          rw [hagree i (List.mem_of_mem_filter hi)]
        rw [List.filter_cons]
        simp only [if_true, decide_eq_true_eq]
        split_ifs at h ⊢ with hw
        · rw [List.map_cons, if_pos rfl, e1, e2]; exact (Except.ok.inj h).symm
        · rw [e1, e2]; exact (Except.ok.inj h).symm

/-- **C81.** The arrays of a shadow fit together: `fb1`, `fb2` and `intensity` have the same length, twice the number of
rays kept; `fb2` is `fb1` mirrored; the rays kept are exactly those of the grid for which the root finder gave a real
number; and all grid rays have impact parameters between the critical one and the field of view. -/
theorem C81_arrays {newton : ℝ → Py ℂ} {q : Rule} {M fov limit : ℝ} {n : ℕ} {sh : Shadow}
    (h : Shadow.new newton q M n fov limit = .ok sh) :
    sh.intensity.length = sh.fb1.length ∧ sh.fb2.length = sh.fb1.length ∧ sh.fb1.length = 2 * sh.bfin.length ∧
    sh.fb2 = sh.fb1.map (fun x => -x) ∧ sh.b.length = n ∧
    (∃ root : ℝ → ℂ, (∀ i ∈ sh.b, newton i = .ok (root i)) ∧ sh.bfin = sh.b.filter (fun i => (root i).im = 0) ∧
      ∀ p ∈ sh.z, p.2 = (root p.1).re) ∧
    (bCrit M ≤ fov → ∀ b ∈ sh.b, bCrit M ≤ b ∧ b ≤ fov) := by
  unfold Shadow.new at h
  simp only [bind, Except.bind, pure, Except.pure] at h
  cases hz : turningPoints newton (linspace (bCrit M) fov n) with
  | error e => rw [hz] at h; cases h
  | ok z =>
    rw [hz] at h
    obtain ⟨root, h1, h2⟩ := turningPoints_spec hz
    rw [← Except.ok.inj h]
    refine ⟨?_, ?_, ?_, ?_, linspace_length _ _ _, ⟨root, h1, ?_, ?_⟩, fun hle b hb => linspace_mem hle hb⟩
    · simp [intensityBelow, intensityAbove]
    · simp
    · simp [linspace_length]; omega
    · simp
    · show z.map Prod.fst = _
      rw [h2, List.map_map]
      exact List.map_id _
    · intro p hp
      have hp' : p ∈ z := hp
      rw [h2, List.mem_map] at hp'
      obtain ⟨i, _, rfl⟩ := hp'
      rfl

theorem npDiv_ok {x y : ℝ} (hy : y ≠ 0) : npDiv x y = .ok (x / y) := by unfold npDiv; rw [if_neg hy]
theorem npSqrt_ok {x : ℝ} (hx : 0 ≤ x) : Num.npSqrt x = .ok (Real.sqrt x) := by unfold Num.npSqrt; rw [if_neg (not_lt.2 hx)]

/-- **C81.** Wherever the ray can be (outside the horizon and beyond its turning point, `b < impact M r`), both integrands
are numbers; the red-shifted one is positive, the blue-shifted one negative (it is integrated inwards) and not smaller
in size. -/
theorem C81_integrands {M r b : ℝ} (hM : 0 < M) (hr : 2 * M < r) (hb : |b| < impact M r) :
    ∃ B R, intensityBlue M r b = .ok B ∧ intensityRed M r b = .ok R ∧ B < 0 ∧ 0 < R ∧ R ≤ -B := by
  have hr0 : 0 < r := by linarith
  have hf := lapse_pos' hM.le hr
  have hf1 : 1 - 2 * M / r < 1 := by
    have : 0 < 2 * M / r := by positivity
    linarith
  have hbf : b ^ 2 * (1 - 2 * M / r) < r ^ 2 := by
    have h1 : b ^ 2 < impact M r ^ 2 := by
      rw [← sq_abs b]; exact (sq_lt_sq₀ (abs_nonneg b) (impact_pos hM.le hr).le).2 hb
    rw [impact, div_pow, Real.sq_sqrt hf.le, lt_div_iff₀ hf] at h1
    exact h1
  have hd := npDiv_ok (x := 2 * M) hr0.ne'
  generalize hfd : 1 - 2 * M / r = f at *
  have hA : 0 < f / (1 / f) * (1 - b ^ 2 * f / r ^ 2) := by
    have h1 : 0 < 1 - b ^ 2 * f / r ^ 2 := by rw [sub_pos, div_lt_one (by positivity)]; exact hbf
    positivity
  have hC : 0 ≤ (1 - f) / (f * (1 / f)) := by
    have : 0 < 1 - f := by linarith
    positivity
  have hK : krktExt f (1 / f) r b = .ok (Real.sqrt (f / (1 / f) * (1 - b ^ 2 * f / r ^ 2))) := by
    unfold krktExt
    simp only [npDiv_ok (show (1 / f) ≠ 0 by positivity), npDiv_ok (show r ^ 2 ≠ 0 by positivity), bind, Except.bind]
    exact npSqrt_ok hA.le
  have hKp := Real.sqrt_pos.2 hA
  have hKs := Real.sq_sqrt hA.le
  have hTs := Real.sq_sqrt hC
  have hTn := Real.sqrt_nonneg ((1 - f) / (f * (1 / f)))
  unfold intensityBlue intensityRed
  simp only [hd, bind, Except.bind, pure, Except.pure, hfd, npDiv_ok hf.ne', hK,
    npDiv_ok (show f * (1 / f) ≠ 0 by positivity), npSqrt_ok hC, npDiv_ok (show r ^ 2 ≠ 0 by positivity), npDiv_ok hKp.ne']
  generalize hKd : Real.sqrt (f / (1 / f) * (1 - b ^ 2 * f / r ^ 2)) = K at *
  generalize hTd : Real.sqrt ((1 - f) / (f * (1 / f))) = T at *
  generalize hXd : K * (1 / f / f) * T = X
  have hX0 : 0 ≤ X := by rw [← hXd]; positivity
  have hXlt : X < 1 / f := by
    refine lt_of_pow_lt_pow_left₀ 2 (by positivity) ?_
    have e1 : X ^ 2 = (1 - b ^ 2 * f / r ^ 2) * (1 - f) / f ^ 2 := by
      rw [← hXd, mul_pow, mul_pow, hKs, hTs]; field_simp
    rw [e1, one_div, inv_pow, div_eq_mul_inv]
    have h1 : (1 - b ^ 2 * f / r ^ 2) * (1 - f) < 1 := by
      have h2 : 0 ≤ b ^ 2 * f / r ^ 2 := by positivity
      have h3 : 0 < 1 - b ^ 2 * f / r ^ 2 := by rw [sub_pos, div_lt_one (by positivity)]; exact hbf
      nlinarith
    have h2 : 0 < (f ^ 2)⁻¹ := by positivity
    nlinarith
  have hb1 : 0 < 1 / f - X := by linarith
  have hr1 : 0 < 1 / f + X := by linarith
  rw [npDiv_ok hb1.ne', npDiv_ok hr1.ne']
  have hc : 0 < f / r ^ 2 * (1 / K) := by positivity
  have hg : (1 / (1 / f + X)) ^ 3 ≤ (1 / (1 / f - X)) ^ 3 :=
    pow_le_pow_left₀ (by positivity) (one_div_le_one_div_of_le hb1 (by linarith)) 3
  have hg0 : 0 < (1 / (1 / f + X)) ^ 3 := by positivity
  refine ⟨_, _, rfl, rfl, ?_, ?_, ?_⟩
  · have : 0 < (1 / (1 / f - X)) ^ 3 * (f / r ^ 2 * (1 / K)) := mul_pos (by linarith) hc
    linarith [this, show -(1 / (1 / f - X)) ^ 3 * (f / r ^ 2) * (1 / K) = -((1 / (1 / f - X)) ^ 3 * (f / r ^ 2 * (1 / K))) by ring]
  · rw [mul_assoc]; exact mul_pos hg0 hc
  · have := mul_le_mul_of_nonneg_right hg hc.le
    linarith [show -(-(1 / (1 / f - X)) ^ 3 * (f / r ^ 2) * (1 / K)) = (1 / (1 / f - X)) ^ 3 * (f / r ^ 2 * (1 / K)) by ring,
      show (1 / (1 / f + X)) ^ 3 * (f / r ^ 2) * (1 / K) = (1 / (1 / f + X)) ^ 3 * (f / r ^ 2 * (1 / K)) by ring]

/-- A case: M = 1, r = 4, b = 2. -/
example : (0:ℝ) < 1 ∧ 2 * (1:ℝ) < 4 ∧ |(2:ℝ)| < impact 1 4 := by
  refine ⟨by norm_num, by norm_num, lt_of_lt_of_le ?_ (impact_ge (by norm_num) (by norm_num))⟩
  rw [abs_of_pos] <;> norm_num

/-! ### Quadrature -/

theorem pySum_pos {l : List (Py ℝ)} (hl : l ≠ []) (h : ∀ x ∈ l, ∃ v, x = .ok v ∧ 0 < v) : ∃ v, pySum l = .ok v ∧ 0 < v := by
  induction l with
  | nil => exact absurd rfl hl
  | cons a l ih =>
    obtain ⟨v, rfl, hv⟩ := h a List.mem_cons_self
    by_cases hn : l = []
    · subst hn; exact ⟨v + 0, rfl, by linarith⟩
    · obtain ⟨w, hw, hw0⟩ := ih hn fun x hx => h x (List.mem_cons_of_mem _ hx)
      refine ⟨v + w, ?_, by linarith⟩
      show (do return (← (Except.ok v : Py ℝ)) + (← pySum l) : Py ℝ) = _
      simp only [hw, bind, Except.bind, pure, Except.pure]

/-- Positive on the open interval: a positive integral. -/
theorem fixedQuad_pos (q : Rule) {f : ℝ → Py ℝ} {a b : ℝ} (hab : a < b)
    (hf : ∀ x, a < x → x < b → ∃ v, f x = .ok v ∧ 0 < v) : ∃ v, fixedQuad q f a b = .ok v ∧ 0 < v := by
  have hpos : ∃ v, pySum (List.ofFn fun i => do return q.w i * (← f ((b - a) * (q.x i + 1) / 2 + a))) = .ok v ∧ 0 < v := by
    refine pySum_pos ?_ ?_
    · rw [Ne, List.ofFn_eq_nil_iff]; exact q.n_pos.ne'
    · intro x hx
      rw [List.mem_ofFn'] at hx
      obtain ⟨i, rfl⟩ := hx
      obtain ⟨h1, h2⟩ := q.inside i
      have hba : 0 < b - a := by linarith
      obtain ⟨v, hv, hv0⟩ := hf ((b - a) * (q.x i + 1) / 2 + a) (by nlinarith) (by nlinarith)
      refine ⟨q.w i * v, ?_, mul_pos (q.w_pos i) hv0⟩
      simp only [hv, bind, Except.bind, pure, Except.pure]
  obtain ⟨v, hv, hv0⟩ := hpos
  refine ⟨(b - a) / 2 * v, ?_, mul_pos (by linarith) hv0⟩
  unfold fixedQuad
  rw [hv]; rfl

theorem pySum_neg {l : List (Py ℝ)} (hl : l ≠ []) (h : ∀ x ∈ l, ∃ v, x = .ok v ∧ v < 0) : ∃ v, pySum l = .ok v ∧ v < 0 := by
  induction l with
  | nil => exact absurd rfl hl
  | cons a l ih =>
    obtain ⟨v, rfl, hv⟩ := h a List.mem_cons_self
    by_cases hn : l = []
    · subst hn; exact ⟨v + 0, rfl, by linarith⟩
    · obtain ⟨w, hw, hw0⟩ := ih hn fun x hx => h x (List.mem_cons_of_mem _ hx)
      refine ⟨v + w, ?_, by linarith⟩
      show (do return (← (Except.ok v : Py ℝ)) + (← pySum l) : Py ℝ) = _
      simp only [hw, bind, Except.bind, pure, Except.pure]

/-- Negative on the open interval and integrated downwards: a positive integral. -/
theorem fixedQuad_neg (q : Rule) {f : ℝ → Py ℝ} {a b : ℝ} (hab : b < a)
    (hf : ∀ x, b < x → x < a → ∃ v, f x = .ok v ∧ v < 0) : ∃ v, fixedQuad q f a b = .ok v ∧ 0 < v := by
  have hneg : ∃ v, pySum (List.ofFn fun i => do return q.w i * (← f ((b - a) * (q.x i + 1) / 2 + a))) = .ok v ∧ v < 0 := by
    refine pySum_neg ?_ ?_
    · rw [Ne, List.ofFn_eq_nil_iff]; exact q.n_pos.ne'
    · intro x hx
      rw [List.mem_ofFn'] at hx
      obtain ⟨i, rfl⟩ := hx
      obtain ⟨h1, h2⟩ := q.inside i
      have hba : 0 < a - b := by linarith
      obtain ⟨v, hv, hv0⟩ := hf ((b - a) * (q.x i + 1) / 2 + a) (by nlinarith) (by nlinarith)
      refine ⟨q.w i * v, ?_, mul_neg_of_pos_of_neg (q.w_pos i) hv0⟩
      simp only [hv, bind, Except.bind, pure, Except.pure]
  obtain ⟨v, hv, hv0⟩ := hneg
  refine ⟨(b - a) / 2 * v, ?_, mul_pos_of_neg_of_neg (by linarith) hv0⟩
  unfold fixedQuad
  rw [hv]; rfl

/-- **C81.** Every intensity of a shadow is a positive number, except possibly that of the critical ray: for every
quadrature rule with interior nodes and positive weights, whenever the root finder's real answers are turning points
between the photon sphere and the observer. -/
theorem C81_positive {newton : ℝ → Py ℂ} {q : Rule} {M fov limit : ℝ} {n : ℕ} {sh : Shadow}
    (h : Shadow.new newton q M n fov limit = .ok sh) (hM : 0 < M) (hfov : 2 * M < fov)
    (hlim : 0 ≤ limit ∧ limit ≤ bCrit M)
    (hz : ∀ p ∈ sh.z, 3 * M ≤ p.2 ∧ p.2 < fov ∧ impact M p.2 = p.1)
    (i : ℕ) (b : ℝ) (v : Py ℝ) (hb : sh.fb1[i]? = some b) (hv : sh.intensity[i]? = some v) (hne : b ≠ bCrit M) :
    ∃ x, v = .ok x ∧ 0 < x := by
  unfold Shadow.new at h
  simp only [bind, Except.bind, pure, Except.pure] at h
  cases hzz : turningPoints newton (linspace (bCrit M) fov n) with
  | error e => rw [hzz] at h; cases h
  | ok z =>
    rw [hzz] at h
    have hsh := Except.ok.inj h
    rw [← hsh] at hb hv hz
    simp only at hb hv hz
    by_cases hi : i < (linspace limit (bCrit M) (z.map Prod.fst).length).length
    · rw [List.getElem?_append_left hi] at hb
      rw [List.getElem?_append_left (by rw [intensityBelow, List.length_map]; exact hi), intensityBelow, List.getElem?_map, hb]
        at hv
      have hv' := (Option.some.inj hv).symm
      rw [hv']
      have hmem := linspace_mem hlim.2 (List.mem_of_getElem? hb)
      have hlt : |b| < bCrit M := by
        rw [abs_of_nonneg (by linarith [hmem.1, hlim.1])]; exact lt_of_le_of_ne hmem.2 hne
      refine fixedQuad_pos q hfov fun r h1 h2 => ?_
      obtain ⟨B, R, _, hR, _, hR0, _⟩ := C81_integrands hM h1
        (lt_of_lt_of_le hlt ((C57_critical hM).1.2 ⟨r, h1, rfl⟩))
      exact ⟨R, hR, hR0⟩
    · push Not at hi
      have hlen : (intensityBelow q M fov (linspace limit (bCrit M) (z.map Prod.fst).length)).length =
          (linspace limit (bCrit M) (z.map Prod.fst).length).length := by rw [intensityBelow, List.length_map]
      rw [List.getElem?_append_right hi] at hb
      rw [List.getElem?_append_right (by rw [hlen]; exact hi), hlen, intensityAbove, List.getElem?_map] at hv
      rw [List.getElem?_map] at hb
      generalize i - _ = j at hb hv
      cases hj : z[j]? with
      | none => rw [hj] at hv; cases hv
      | some p =>
        rw [hj] at hv hb
        have hv' := (Option.some.inj hv).symm
        obtain ⟨k1, k2, k3⟩ := hz p (List.mem_of_getElem? hj)
        have hint : ∀ r, p.2 < r → |p.1| < impact M r ∧ 2 * M < r := by
          intro r hr
          have hp0 : 0 < p.1 := by rw [← k3]; exact impact_pos hM.le (by linarith)
          rw [abs_of_pos hp0, ← k3]
          exact ⟨impact_lt hM k1 hr, by linarith⟩
        obtain ⟨x1, e1, p1⟩ := fixedQuad_neg q (f := fun r => intensityBlue M r p.1) k2 fun r h1 _ => by
          obtain ⟨B, R, hB, _, hB0, _, _⟩ := C81_integrands hM (hint r h1).2 (hint r h1).1
          exact ⟨B, hB, hB0⟩
        obtain ⟨x2, e2, p2⟩ := fixedQuad_pos q (f := fun r => intensityRed M r p.1) k2 fun r h1 _ => by
          obtain ⟨B, R, _, hR, _, hR0, _⟩ := C81_integrands hM (hint r h1).2 (hint r h1).1
          exact ⟨R, hR, hR0⟩
        refine ⟨x1 + x2, ?_, by linarith⟩
        rw [hv']
        simp only [e1, e2, bind, Except.bind, pure, Except.pure]

/-- The hypotheses can be met: one ray with M = 1 and a root finder that knows the photon sphere. -/
example (q : Rule) : ∃ sh, Shadow.new (fun _ => .ok 3) q 1 1 10 0.001 = .ok sh ∧
    ∀ p ∈ sh.z, 3 * 1 ≤ p.2 ∧ p.2 < 10 ∧ impact 1 p.2 = p.1 := by
  have h3 : (3:ℂ).im = 0 := by simp
  have h4 : (3:ℂ).re = 3 := by simp
  have e : turningPoints (fun _ => .ok 3) (linspace (bCrit 1) 10 1) = .ok [(bCrit 1, 3)] := by
    simp [linspace, turningPoints, bind, Except.bind, pure, Except.pure]
  unfold Shadow.new
  simp only [e, bind, Except.bind, pure, Except.pure]
  refine ⟨_, rfl, ?_⟩
  intro p hp
  have hp' : p ∈ [((bCrit 1, 3) : ℝ × ℝ)] := hp
  rw [List.mem_singleton] at hp'
  rw [hp']
  refine ⟨by norm_num, by norm_num, ?_⟩
  exact ((C57_critical one_pos).2 3 (by norm_num)).2 (by norm_num)

end Einpy.Misc
