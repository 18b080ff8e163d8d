import Mathlib.Analysis.SpecialFunctions.Complex.LogDeriv
import Mathlib.Analysis.SpecialFunctions.Sqrt
import Mathlib.Analysis.SpecialFunctions.Trigonometric.InverseDeriv
import Mathlib.Analysis.SpecialFunctions.Trigonometric.Deriv
import Verif.Coord.Bl

/-!
# Converted velocities are the derivatives of converted positions: property C53
-/

namespace Einpy.Coord
open Classical Topology

theorem hasDerivAt_arctan2 {f g : ℝ → ℝ} {f' g' τ : ℝ} (hf : HasDerivAt f f' τ) (hg : HasDerivAt g g' τ)
    (h : 0 < f τ ∨ g τ ≠ 0) :
    HasDerivAt (fun s => npArctan2 (g s) (f s)) ((f τ * g' - f' * g τ) / (f τ ^ 2 + g τ ^ 2)) τ := by
  have hF : HasDerivAt (fun s => ((f s : ℂ) + (g s : ℂ) * Complex.I)) ((f' : ℂ) + (g' : ℂ) * Complex.I) τ :=
    hf.ofReal_comp.add (hg.ofReal_comp.mul_const Complex.I)
  have hs : ((f τ : ℂ) + (g τ : ℂ) * Complex.I) ∈ Complex.slitPlane := by
    rw [Complex.mem_slitPlane_iff]
    simpa using h
  have hl := hF.clog_real hs
  have hi := Complex.imCLM.hasFDerivAt.comp_hasDerivAt τ hl
  refine (hi.congr_of_eventuallyEq (Filter.Eventually.of_forall fun s => ?_)).congr_deriv ?_
  · show npArctan2 (g s) (f s) = (Complex.log ((f s : ℂ) + (g s : ℂ) * Complex.I)).im
    rw [Complex.log_im]
    unfold npArctan2
    congr 1
    apply Complex.ext <;> simp
  · show (((f' : ℂ) + (g' : ℂ) * Complex.I) / ((f τ : ℂ) + (g τ : ℂ) * Complex.I)).im = _
    rw [Complex.div_im]
    simp [Complex.normSq_apply]
    ring

theorem hasDerivAt_hypot {f g : ℝ → ℝ} {f' g' τ : ℝ} (hf : HasDerivAt f f' τ) (hg : HasDerivAt g g' τ)
    (h : f τ ^ 2 + g τ ^ 2 ≠ 0) :
    HasDerivAt (fun s => npHypot (f s) (g s)) ((f τ * f' + g τ * g') / npHypot (f τ) (g τ)) τ := by
  have := ((hf.pow 2).add (hg.pow 2)).sqrt h
  refine this.congr_deriv ?_
  show _ / (2 * npHypot (f τ) (g τ)) = _
  have : npHypot (f τ) (g τ) ≠ 0 := by
    unfold npHypot
    rw [Real.sqrt_ne_zero']
    exact lt_of_le_of_ne (by positivity) (Ne.symm h)
  field_simp
  simp
  ring

/-- cosine and sine of the azimuth are differentiable off the axis, across the branch cut as well -/
theorem hasDerivAt_phase {x y : ℝ → ℝ} {u v τ : ℝ} (hx : HasDerivAt x u τ) (hy : HasDerivAt y v τ)
    (h : x τ ^ 2 + y τ ^ 2 ≠ 0) :
    HasDerivAt (fun s => Real.cos (npArctan2 (y s) (x s)))
      (-Real.sin (npArctan2 (y τ) (x τ)) * ((x τ * v - u * y τ) / (x τ ^ 2 + y τ ^ 2))) τ ∧
    HasDerivAt (fun s => Real.sin (npArctan2 (y s) (x s)))
      (Real.cos (npArctan2 (y τ) (x τ)) * ((x τ * v - u * y τ) / (x τ ^ 2 + y τ ^ 2))) τ := by
  have hp : 0 < npHypot (x τ) (y τ) := Real.sqrt_pos.mpr (lt_of_le_of_ne (by positivity) (Ne.symm h))
  have hh := hasDerivAt_hypot hx hy h
  have hne : ∀ᶠ s in 𝓝 τ, npHypot (x s) (y s) ≠ 0 := hh.continuousAt.eventually_ne hp.ne'
  have c : ∀ p q : ℝ, npHypot p q ≠ 0 → Real.cos (npArctan2 q p) = p / npHypot p q := fun p q hpq => by
    rw [eq_div_iff hpq, mul_comm, hypot_cos]
  have d : ∀ p q : ℝ, npHypot p q ≠ 0 → Real.sin (npArctan2 q p) = q / npHypot p q := fun p q hpq => by
    rw [eq_div_iff hpq, mul_comm, hypot_sin]
  have q1 := hypot_sq (x τ) (y τ)
  constructor
  · refine ((hx.fun_div hh hp.ne').congr_of_eventuallyEq (hne.mono fun s hs => c _ _ hs)).congr_deriv ?_
    rw [d _ _ hp.ne', ← q1]
    generalize npHypot (x τ) (y τ) = s at *
    field_simp
    linear_combination u * q1
  · refine ((hy.fun_div hh hp.ne').congr_of_eventuallyEq (hne.mono fun s hs => d _ _ hs)).congr_deriv ?_
    rw [c _ _ hp.ne', ← q1]
    generalize npHypot (x τ) (y τ) = s at *
    field_simp
    linear_combination v * q1

/-- **C53** (Cartesian → spherical): along every differentiable curve, at every point off the z axis, the velocity returned
is the derivative of the converted position; on the branch cut of the azimuth the derivative is that of the unit vector
`(cos φ, sin φ)`. -/
theorem C53_cartesian_to_spherical {x y z : ℝ → ℝ} {u v w τ : ℝ} (hx : HasDerivAt x u τ) (hy : HasDerivAt y v τ)
    (hz : HasDerivAt z w τ) (hoff : x τ ≠ 0 ∨ y τ ≠ 0) {R Th Ph : ℝ → ℝ}
    (hpos : ∀ᶠ s in 𝓝 τ, Cartesian.convertSpherical (Conv.new ⟨s, x s, y s, z s⟩ none none none) =
      .ok (⟨s, R s, Th s, Ph s⟩, none)) :
    ∃ vr vth vp, Cartesian.convertSpherical (Conv.new ⟨τ, x τ, y τ, z τ⟩ (some u) (some v) (some w)) =
        .ok (⟨τ, R τ, Th τ, Ph τ⟩, some ⟨vr, vth, vp⟩) ∧
      HasDerivAt R vr τ ∧ HasDerivAt Th vth τ ∧ (0 < x τ ∨ y τ ≠ 0 → HasDerivAt Ph vp τ) ∧
      HasDerivAt (fun s => Real.cos (Ph s)) (-Real.sin (Ph τ) * vp) τ ∧
      HasDerivAt (fun s => Real.sin (Ph s)) (Real.cos (Ph τ) * vp) τ := by
  have h1 : 0 < x τ ^ 2 + y τ ^ 2 := by rcases hoff with h | h <;> positivity
  have hev : ∀ᶠ s in 𝓝 τ, R s = npHypot (npHypot (x s) (y s)) (z s) ∧ Th s = npArctan2 (npHypot (x s) (y s)) (z s) ∧
      Ph s = npArctan2 (y s) (x s) := by
    filter_upwards [hpos] with s hs
    rw [conv_sph4] at hs
    have := congrArg Prod.fst (Except.ok.inj hs)
    exact ⟨(congrArg Pos.a this).symm, (congrArg Pos.b this).symm, (congrArg Pos.c this).symm⟩
  obtain ⟨e1, e2, e3⟩ := hev.self_of_nhds
  have hp : 0 < npHypot (x τ) (y τ) := Real.sqrt_pos.mpr h1
  have hh := hasDerivAt_hypot hx hy h1.ne'
  have hr : 0 < npHypot (npHypot (x τ) (y τ)) (z τ) := Real.sqrt_pos.mpr (by positivity)
  have hph := hasDerivAt_phase hx hy h1.ne'
  have q1 := hypot_sq (x τ) (y τ)
  have q2 := hypot_sq (npHypot (x τ) (y τ)) (z τ)
  refine ⟨_, _, _, (conv_sph7 ..).trans (by rw [cartToSph_ok _ _ _ _ _ _ _ h1.ne', e1, e2, e3]; rfl), ?_, ?_, ?_, ?_, ?_⟩
  · refine ((hasDerivAt_hypot hh hz (by positivity)).congr_of_eventuallyEq (hev.mono fun s hs => hs.1)).congr_deriv ?_
    rw [mul_div_cancel₀ _ hp.ne']
  · refine ((hasDerivAt_arctan2 hz hh (Or.inr hp.ne')).congr_of_eventuallyEq
      (hev.mono fun s hs => hs.2.1)).congr_deriv ?_
    rw [q2, ← q1]
    generalize npHypot (x τ) (y τ) = s at *
    rw [add_comm (z τ ^ 2)]
    have : 0 < s ^ 2 + z τ ^ 2 := by positivity
    field_simp
  · intro hc
    exact (hasDerivAt_arctan2 hx hy hc).congr_of_eventuallyEq (hev.mono fun s hs => hs.2.2)
  · rw [e3]; exact hph.1.congr_of_eventuallyEq (hev.mono fun s hs => congrArg Real.cos hs.2.2)
  · rw [e3]; exact hph.2.congr_of_eventuallyEq (hev.mono fun s hs => congrArg Real.sin hs.2.2)

/-- **C53** (spherical → Cartesian): along every differentiable curve, without exception. -/
theorem C53_spherical_to_cartesian {r th ph : ℝ → ℝ} {u v w τ : ℝ} (hr : HasDerivAt r u τ) (hth : HasDerivAt th v τ)
    (hph : HasDerivAt ph w τ) {X Y Z : ℝ → ℝ}
    (hpos : ∀ᶠ s in 𝓝 τ, Spherical.convertCartesian (Conv.new ⟨s, r s, th s, ph s⟩ none none none) =
      .ok (⟨s, X s, Y s, Z s⟩, none)) :
    ∃ vx vy vz, Spherical.convertCartesian (Conv.new ⟨τ, r τ, th τ, ph τ⟩ (some u) (some v) (some w)) =
        .ok (⟨τ, X τ, Y τ, Z τ⟩, some ⟨vx, vy, vz⟩) ∧
      HasDerivAt X vx τ ∧ HasDerivAt Y vy τ ∧ HasDerivAt Z vz τ := by
  have hev : ∀ᶠ s in 𝓝 τ, X s = r s * Real.cos (ph s) * Real.sin (th s) ∧
      Y s = r s * Real.sin (ph s) * Real.sin (th s) ∧ Z s = r s * Real.cos (th s) := by
    filter_upwards [hpos] with s hs
    rw [conv_cart4] at hs
    have := congrArg Prod.fst (Except.ok.inj hs)
    exact ⟨(congrArg Pos.a this).symm, (congrArg Pos.b this).symm, (congrArg Pos.c this).symm⟩
  obtain ⟨e1, e2, e3⟩ := hev.self_of_nhds
  refine ⟨_, _, _, by rw [conv_cart7, e1, e2, e3], ?_, ?_, ?_⟩
  · refine ((hr.fun_mul hph.cos).fun_mul hth.sin |>.congr_of_eventuallyEq (hev.mono fun s hs => hs.1)).congr_deriv ?_
    ring
  · refine ((hr.fun_mul hph.sin).fun_mul hth.sin |>.congr_of_eventuallyEq (hev.mono fun s hs => hs.2.1)).congr_deriv ?_
    ring
  · refine ((hr.fun_mul hth.cos).congr_of_eventuallyEq (hev.mono fun s hs => hs.2.2)).congr_deriv ?_
    ring

/-- **C53** (Boyer-Lindquist → Cartesian): along every differentiable curve, for every mass and spin, away from the origin
of a spinless chart. -/
theorem C53_bl_to_cartesian (k : Num.PhysConst) {M a : ℝ} (ha : 0 ≤ a ∧ a ≤ 1) {r th ph : ℝ → ℝ} {u v w τ : ℝ}
    (hr : HasDerivAt r u τ) (hth : HasDerivAt th v τ) (hph : HasDerivAt ph w τ)
    (hne : r τ ≠ 0 ∨ a * (k.G * M / k.c ^ 2) ≠ 0) {X Y Z : ℝ → ℝ}
    (hpos : ∀ᶠ s in 𝓝 τ, BoyerLindquist.convertCartesian k (Conv.new ⟨s, r s, th s, ph s⟩ none none none)
      ⟨some M, some a⟩ = .ok (⟨s, X s, Y s, Z s⟩, none)) :
    ∃ vx vy vz, BoyerLindquist.convertCartesian k (Conv.new ⟨τ, r τ, th τ, ph τ⟩ (some u) (some v) (some w))
        ⟨some M, some a⟩ = .ok (⟨τ, X τ, Y τ, Z τ⟩, some ⟨vx, vy, vz⟩) ∧
      HasDerivAt X vx τ ∧ HasDerivAt Y vy τ ∧ HasDerivAt Z vz τ := by
  have hal := alpha_ok k (M := M) ha
  generalize a * (k.G * M / k.c ^ 2) = al at hne hal
  have hev : ∀ᶠ s in 𝓝 τ, X s = Real.sqrt (r s ^ 2 + al ^ 2) * Real.sin (th s) * Real.cos (ph s) ∧
      Y s = Real.sqrt (r s ^ 2 + al ^ 2) * Real.sin (th s) * Real.sin (ph s) ∧ Z s = r s * Real.cos (th s) := by
    filter_upwards [hpos] with s hs
    rw [conv_blcart4 k hal, blToCartNovel_ok] at hs
    have := congrArg Prod.fst (Except.ok.inj hs)
    exact ⟨(congrArg Pos.a this).symm, (congrArg Pos.b this).symm, (congrArg Pos.c this).symm⟩
  obtain ⟨e1, e2, e3⟩ := hev.self_of_nhds
  have h2 : 0 < r τ ^ 2 + al ^ 2 := by rcases hne with h | h <;> positivity
  have hxa := ((hr.fun_pow 2).add_const (al ^ 2)).sqrt h2.ne'
  have hp : 0 < Real.sqrt (r τ ^ 2 + al ^ 2) := Real.sqrt_pos.mpr h2
  refine ⟨_, _, _, by rw [conv_blcart7 k hal, blToCart_ok h2, e1, e2, e3]; rfl, ?_, ?_, ?_⟩
  · refine ((hxa.fun_mul hth.sin).fun_mul hph.cos |>.congr_of_eventuallyEq (hev.mono fun s hs => hs.1)).congr_deriv ?_
    generalize Real.sqrt (r τ ^ 2 + al ^ 2) = A at *
    field_simp
    ring
  · refine ((hxa.fun_mul hth.sin).fun_mul hph.sin |>.congr_of_eventuallyEq (hev.mono fun s hs => hs.2.1)).congr_deriv ?_
    generalize Real.sqrt (r τ ^ 2 + al ^ 2) = A at *
    field_simp
    ring
  · refine ((hr.fun_mul hth.cos).congr_of_eventuallyEq (hev.mono fun s hs => hs.2.2)).congr_deriv ?_
    ring

theorem hasDerivAt_blR {x y z : ℝ → ℝ} {u v w τ al : ℝ} (hx : HasDerivAt x u τ) (hy : HasDerivAt y v τ)
    (hz : HasDerivAt z w τ) (h : z τ ≠ 0 ∨ al ^ 2 < x τ ^ 2 + y τ ^ 2) :
    HasDerivAt (fun s => blR al (x s) (y s) (z s))
      ((blR al (x τ) (y τ) (z τ) ^ 2 * (x τ * u + y τ * v + z τ * w) + al ^ 2 * z τ * w) /
        (blR al (x τ) (y τ) (z τ) * blD al (x τ) (y τ) (z τ))) τ := by
  have hr := blR_pos h
  have hD := blD_pos h
  have hW : HasDerivAt (fun s => x s ^ 2 + y s ^ 2 + z s ^ 2 - al ^ 2) (2 * (x τ * u + y τ * v + z τ * w)) τ := by
    refine ((((hx.fun_pow 2).fun_add (hy.fun_pow 2)).fun_add (hz.fun_pow 2)).sub_const (al ^ 2)).congr_deriv ?_
    simp; ring
  have hDD := ((hW.fun_pow 2).fun_add ((hz.fun_pow 2).const_mul (4 * al ^ 2))).sqrt (by
    have : 0 < blD al (x τ) (y τ) (z τ) := hD
    unfold blD at this
    exact (Real.sqrt_pos.mp this).ne')
  have hRR := ((hW.fun_add hDD).const_mul 0.5).sqrt (by
    have : 0 < blR al (x τ) (y τ) (z τ) := hr
    unfold blR at this
    exact (Real.sqrt_pos.mp this).ne')
  refine hRR.congr_deriv ?_
  show 0.5 * (2 * (x τ * u + y τ * v + z τ * w) + _ / (2 * blD al (x τ) (y τ) (z τ))) /
    (2 * blR al (x τ) (y τ) (z τ)) = _
  have hs := blR_sq al (x τ) (y τ) (z τ)
  simp only [Nat.cast_ofNat, Nat.add_one_sub_one, pow_one]
  rw [show x τ ^ 2 + y τ ^ 2 + z τ ^ 2 - al ^ 2 =
    2 * blR al (x τ) (y τ) (z τ) ^ 2 - blD al (x τ) (y τ) (z τ) by linarith]
  generalize blR al (x τ) (y τ) (z τ) = r at *
  generalize blD al (x τ) (y τ) (z τ) = D at *
  norm_num
  field_simp
  ring

/-- **C53** (Cartesian → Boyer-Lindquist; missing: points with `x = 0`, see `C53_refuted_bl`). -/
theorem C53_cartesian_to_bl_partial (k : Num.PhysConst) {M a : ℝ} (ha : 0 ≤ a ∧ a ≤ 1) {x y z : ℝ → ℝ} {u v w τ : ℝ}
    (hx : HasDerivAt x u τ) (hy : HasDerivAt y v τ) (hz : HasDerivAt z w τ)
    (hreg : z τ ≠ 0 ∨ (a * (k.G * M / k.c ^ 2)) ^ 2 < x τ ^ 2 + y τ ^ 2) (hx0 : x τ ≠ 0) {R Th Ph : ℝ → ℝ}
    (hpos : ∀ᶠ s in 𝓝 τ, Cartesian.convertBl k (Conv.new ⟨s, x s, y s, z s⟩ none none none) ⟨some M, some a⟩ =
      .ok (⟨s, R s, Th s, Ph s⟩, none)) :
    ∃ vr vth vp, Cartesian.convertBl k (Conv.new ⟨τ, x τ, y τ, z τ⟩ (some u) (some v) (some w)) ⟨some M, some a⟩ =
        .ok (⟨τ, R τ, Th τ, Ph τ⟩, some ⟨vr, vth, vp⟩) ∧
      HasDerivAt R vr τ ∧ HasDerivAt Th vth τ ∧ (0 < x τ ∨ y τ ≠ 0 → HasDerivAt Ph vp τ) ∧
      HasDerivAt (fun s => Real.cos (Ph s)) (-Real.sin (Ph τ) * vp) τ ∧
      HasDerivAt (fun s => Real.sin (Ph s)) (Real.cos (Ph τ) * vp) τ := by
  have hal := alpha_ok k (M := M) ha
  generalize a * (k.G * M / k.c ^ 2) = al at hreg hal
  have h1 : 0 < x τ ^ 2 + y τ ^ 2 := by positivity
  have hR := hasDerivAt_blR hx hy hz hreg
  have hr := blR_pos hreg
  have hD := blD_pos hreg
  have hev : ∀ᶠ s in 𝓝 τ, R s = blR al (x s) (y s) (z s) ∧ Th s = Real.arccos (z s / blR al (x s) (y s) (z s)) ∧
      Ph s = npArctan2 (y s) (x s) := by
    have hgt : ∀ᶠ s in 𝓝 τ, 0 < blR al (x s) (y s) (z s) := hR.continuousAt.eventually_const_lt hr
    filter_upwards [hpos, hgt] with s hs hg
    rw [conv_bl4 k hal, cartToBlNovel_ok ((blR_pos_iff ..).mp hg)] at hs
    have := congrArg Prod.fst (Except.ok.inj hs)
    exact ⟨(congrArg Pos.a this).symm, (congrArg Pos.b this).symm, (congrArg Pos.c this).symm⟩
  obtain ⟨e1, e2, e3⟩ := hev.self_of_nhds
  have hph := hasDerivAt_phase hx hy h1.ne'
  have hp : 0 < npHypot (x τ) (y τ) := Real.sqrt_pos.mpr h1
  have hsin := bl_sin hreg
  rw [Real.sin_arccos] at hsin
  have hxa : 0 < Real.sqrt (blR al (x τ) (y τ) (z τ) ^ 2 + al ^ 2) := Real.sqrt_pos.mpr (by positivity)
  have hsn : 0 < Real.sqrt (1 - (z τ / blR al (x τ) (y τ) (z τ)) ^ 2) := by
    rcases (Real.sqrt_nonneg (1 - (z τ / blR al (x τ) (y τ) (z τ)) ^ 2)).lt_or_eq with h1 | h1
    · exact h1
    · rw [← h1, mul_zero] at hsin; exact absurd hsin hp.ne
  refine ⟨_, _, _, by rw [conv_bl7 k hal, cartToBl_ok hreg hx0, e1, e2, e3]; rfl, ?_, ?_, ?_, ?_, ?_⟩
  · exact hR.congr_of_eventuallyEq (hev.mono fun s hs => hs.1)
  · have hlt := Real.sqrt_pos.mp hsn
    have n1 : z τ / blR al (x τ) (y τ) (z τ) ≠ -1 := fun e => by rw [e] at hlt; norm_num at hlt
    have n2 : z τ / blR al (x τ) (y τ) (z τ) ≠ 1 := fun e => by rw [e] at hlt; norm_num at hlt
    have hc := (Real.hasDerivAt_arccos n1 n2).comp τ (hz.fun_div hR hr.ne')
    refine (hc.congr_of_eventuallyEq (hev.mono fun s hs => hs.2.1)).congr_deriv ?_
    rw [← hsin]
    field_simp
  · intro hc
    exact (hasDerivAt_arctan2 hx hy hc).congr_of_eventuallyEq (hev.mono fun s hs => hs.2.2)
  · rw [e3]; exact hph.1.congr_of_eventuallyEq (hev.mono fun s hs => congrArg Real.cos hs.2.2)
  · rw [e3]; exact hph.2.congr_of_eventuallyEq (hev.mono fun s hs => congrArg Real.sin hs.2.2)

/-- **C53 is false of this commit** for Cartesian → Boyer-Lindquist at `x = 0`: the curve `(s, 1, 0)` passes the regular
point `(0, 1, 0)`, its Boyer-Lindquist position is differentiable there, but no velocity is returned. -/
theorem C53_refuted_bl (k : Num.PhysConst) : ∃ x y z R Th Ph : ℝ → ℝ, ∃ u v w vr vth vp : ℝ,
    HasDerivAt x u 0 ∧ HasDerivAt y v 0 ∧ HasDerivAt z w 0 ∧
    (∀ s, Cartesian.convertBl k (Conv.new ⟨s, x s, y s, z s⟩ none none none) ⟨some 1, some 0⟩ =
      .ok (⟨s, R s, Th s, Ph s⟩, none)) ∧
    HasDerivAt R vr 0 ∧ HasDerivAt Th vth 0 ∧ HasDerivAt Ph vp 0 ∧
    Cartesian.convertBl k (Conv.new ⟨0, x 0, y 0, z 0⟩ (some u) (some v) (some w)) ⟨some 1, some 0⟩ =
      .error .notANumber := by
  have hx : HasDerivAt (fun s : ℝ => s) 1 0 := hasDerivAt_id 0
  have hy : HasDerivAt (fun _ : ℝ => (1 : ℝ)) 0 0 := hasDerivAt_const 0 1
  have hz : HasDerivAt (fun _ : ℝ => (0 : ℝ)) 0 0 := hasDerivAt_const 0 0
  have hal : Num.alpha k 1 0 = .ok 0 := by rw [alpha_ok k (by norm_num), zero_mul]
  have hreg : ∀ s : ℝ, (0 : ℝ) ≠ 0 ∨ (0 : ℝ) ^ 2 < s ^ 2 + 1 ^ 2 := fun s => Or.inr (by nlinarith [sq_nonneg s])
  refine ⟨fun s => s, fun _ => 1, fun _ => 0, fun s => blR 0 s 1 0, fun s => Real.arccos (0 / blR 0 s 1 0),
    fun s => npArctan2 1 s, 1, 0, 0, _, 0, _, hx, hy, hz, ?_,
    hasDerivAt_blR (x := fun s => s) (y := fun _ => 1) (z := fun _ => 0) hx hy hz (hreg 0), ?_,
    hasDerivAt_arctan2 hx hy (Or.inr one_ne_zero), ?_⟩
  · intro s
    rw [conv_bl4 k hal, cartToBlNovel_ok (hreg s)]
    rfl
  · simp only [zero_div]
    exact hasDerivAt_const _ _
  · exact C52_refuted_velocity k 0 1 0 1 0 0 1 0 (by norm_num)

/-- A circular orbit crossing the branch cut: the hypotheses of `C53_cartesian_to_spherical` are met. -/
example : ∃ (R Th Ph : ℝ → ℝ) (vr vth vp : ℝ), Cartesian.convertSpherical
      (Conv.new ⟨Real.pi, Real.cos Real.pi, Real.sin Real.pi, 1⟩ (some (-Real.sin Real.pi)) (some (Real.cos Real.pi))
        (some 0)) = .ok (⟨Real.pi, R Real.pi, Th Real.pi, Ph Real.pi⟩, some ⟨vr, vth, vp⟩) ∧ HasDerivAt R vr Real.pi ∧
      HasDerivAt Th vth Real.pi ∧ HasDerivAt (fun s => Real.cos (Ph s)) (-Real.sin (Ph Real.pi) * vp) Real.pi := by
  obtain ⟨vr, vth, vp, h1, h2, h3, _, h4, _⟩ := C53_cartesian_to_spherical (z := fun _ => 1) (Real.hasDerivAt_cos Real.pi)
    (Real.hasDerivAt_sin Real.pi) (hasDerivAt_const _ _) (Or.inl (by rw [Real.cos_pi]; norm_num))
    (Filter.Eventually.of_forall fun s => conv_sph4 _ _ _ _)
  exact ⟨_, _, _, vr, vth, vp, h1, h2, h3, h4⟩

end Einpy.Coord
