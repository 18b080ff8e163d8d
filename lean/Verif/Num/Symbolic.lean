import Verif.Curv.Functions
import Verif.Predef.Props2
import Verif.Num.Props2
import Verif.Geodesic.Named
import Verif.Num.Agree

/-!
# C139, C140: geodesics of symbolic Christoffel symbols; symbolic and numerical Christoffel symbols agree
-/

namespace Einpy
open Classical Num
open scoped Topology ContDiff

/-- The Christoffel symbols of a metric and of a constant multiple of it agree. -/
theorem lc_symbolic {G : Vec4 → Mat4} {x : Vec4} {Γ : Tab3} (h : IsLeviCivita G x Γ) {F : Fin 4 → Fin 4 → Vec4 → ℝ} {c : ℝ} (hc : c ≠ 0)
    (hF : ∀ᶠ y in 𝓝 x, ∀ i j, G y i j = c * F i j y) (i j k : Fin 4) : Fn.christoffel F i j k x = Γ i j k := by
  obtain ⟨dG, Gi, hp, hi, hΓ⟩ := h
  have hpd : ∀ a b l, Fn.pd (F a b) l x = c⁻¹ * dG l a b := by
    intro a b l
    have e : F a b =ᶠ[𝓝 x] fun y => c⁻¹ * G y a b := by
      filter_upwards [hF] with y hy
      rw [hy, inv_mul_cancel_left₀ hc]
    rw [Fn.pd_congr e]
    exact ((hp l a b).const_mul c⁻¹).deriv
  have hG : G x = c • Matrix.of fun a b => F a b x := by
    ext a b
    simpa using hF.self_of_nhds a b
  have hinv : (Matrix.of fun a b => F a b x)⁻¹ = c • Gi := by
    refine Matrix.inv_eq_left_inv ?_
    rw [Matrix.smul_mul, ← Matrix.mul_smul, ← hG, hi]
  rw [hΓ, Fn.christoffel, christoffelFormula, hinv]
  refine congrArg (1 / 2 * ·) (Finset.sum_congr rfl fun l _ => ?_)
  rw [hpd, hpd, hpd, Matrix.smul_apply, smul_eq_mul]
  field_simp

variable (k : PhysConst) {U : TopologicalSpace.Opens (Fin 4 → ℝ)}

/-- **C140** (Schwarzschild).  Let the components of a symbolic metric object be functions on `U` whose value at every point is the predefined symbolic
Schwarzschild metric there.  Wherever the numerical class returns its Christoffel symbols, they are the values of
`ChristoffelSymbols.from_metric`. -/
theorem C140_schwarzschild {M : ℝ} (m : MetricV (Fn.SmoothFn U)) (G : Fin 4 → Fin 4 → (Fin 4 → ℝ) → ℝ) (h : Fn.Describes m G)
    (hG : ∀ y ∈ U, ∃ coords, Predef.Returns (Predef.schwarzschild (Predef.atPoint y) k.c (2 * k.G * M / k.c ^ 2)) coords (Matrix.of fun i j => G i j y)) :
    Returns (christoffelFromMetric (Fn.diffD U m.syms) m) fun t => ∀ (x : U) (Γ : Tab3),
      Schwarzschild.christoffels k (Schwarzschild.new k "Spherical" M) x = .ok Γ → ∀ i j l : Fin 4, (t.arr.get [(i : ℕ), j, l]).1 x = Γ i j l := by
  obtain ⟨t, e, ht⟩ := (Fn.C139_functions m G h).1
  refine ⟨t, e, fun x Γ hΓ i j l => ?_⟩
  rw [ht]
  obtain ⟨G', hn, hlc⟩ := C42_schwarzschild_levi_civita k hΓ
  refine lc_symbolic hlc (pow_ne_zero 2 k.c_pos.ne') ?_ i j l
  filter_upwards [hn, U.isOpen.mem_nhds x.2] with y hy hyU a b
  obtain ⟨coords, gs, hgs, e⟩ := Predef.C85_schwarzschild k hy
  obtain ⟨coords', h'⟩ := hG y hyU
  rw [e, (hgs.inj h').2]
  rfl

/-- **C140** (Kerr).  The same for `Kerr`, except for the five symbols that use the wrong derivative of `g_φφ` (C44). -/
theorem C140_kerr_partial {M a : ℝ} {al : ℝ} (hal : Num.alpha k M a = .ok al) (m : MetricV (Fn.SmoothFn U)) (G : Fin 4 → Fin 4 → (Fin 4 → ℝ) → ℝ)
    (h : Fn.Describes m G)
    (hG : ∀ y ∈ U, ∃ coords, Predef.Returns (Predef.kerr (Predef.atPoint y) k.c (2 * k.G * M / k.c ^ 2) al) coords (Matrix.of fun i j => G i j y)) :
    Returns (christoffelFromMetric (Fn.diffD U m.syms) m) fun t => ∀ (x : U) (Γ : Tab3),
      Kerr.christoffels k (Kerr.new k "BoyerLindquist" M a) x = .ok Γ → ∀ i j l : Fin 4,
        (i, j, l) ∉ [((0 : Fin 4), (1 : Fin 4), (3 : Fin 4)), (0, 3, 1), (3, 1, 3), (3, 3, 1), (1, 3, 3)] →
          (t.arr.get [(i : ℕ), j, l]).1 x = Γ i j l := by
  obtain ⟨t, e, ht⟩ := (Fn.C139_functions m G h).1
  refine ⟨t, e, fun x Γ hΓ i j l hne => ?_⟩
  rw [ht]
  obtain ⟨G', Γ', hn, hlc, hΓ'⟩ := C44_kerr_levi_civita_partial k hΓ
  rw [hΓ' i j l hne]
  refine lc_symbolic hlc (pow_ne_zero 2 k.c_pos.ne') ?_ i j l
  filter_upwards [hn, U.isOpen.mem_nhds x.2] with y hy hyU p q
  obtain ⟨al', coords, gs, hal', hgs, e⟩ := Predef.C85_kerr k hy
  obtain ⟨coords', h'⟩ := hG y hyU
  rw [hal] at hal'
  cases hal'
  rw [e, (hgs.inj h').2]
  rfl

/-- **C140** (Kerr, refutation).  All 64 symbols agree at `x` exactly if the hole does not spin, has no mass, or `x` lies on `r² = α² cos² θ`. -/
theorem C140_kerr_refuted_iff {M a : ℝ} {al : ℝ} (hal : Num.alpha k M a = .ok al) (m : MetricV (Fn.SmoothFn U))
    (G : Fin 4 → Fin 4 → (Fin 4 → ℝ) → ℝ) (h : Fn.Describes m G)
    (hG : ∀ y ∈ U, ∃ coords, Predef.Returns (Predef.kerr (Predef.atPoint y) k.c (2 * k.G * M / k.c ^ 2) al) coords (Matrix.of fun i j => G i j y)) :
    Returns (christoffelFromMetric (Fn.diffD U m.syms) m) fun t => ∀ (x : U) (Γ : Tab3),
      Kerr.christoffels k (Kerr.new k "BoyerLindquist" M a) x = .ok Γ →
        ((∀ i j l : Fin 4, (t.arr.get [(i : ℕ), j, l]).1 x = Γ i j l) ↔
          a = 0 ∨ M = 0 ∨ x.1 1 ^ 2 = (k.G * M * a / k.c ^ 2 * Real.cos (x.1 2)) ^ 2) := by
  obtain ⟨t, e, ht⟩ := (Fn.C139_functions m G h).1
  refine ⟨t, e, fun x Γ hΓ => ?_⟩
  obtain ⟨G', Γ', hn, hlc, hΓ'⟩ := C44_kerr_levi_civita_partial k hΓ
  have hF : ∀ᶠ y in 𝓝 (x : Vec4), ∀ p q, G' y p q = k.c ^ 2 * G p q y := by
    filter_upwards [hn, U.isOpen.mem_nhds x.2] with y hy hyU p q
    obtain ⟨al', coords, gs, hal', hgs, e⟩ := Predef.C85_kerr k hy
    obtain ⟨coords', h'⟩ := hG y hyU
    rw [hal] at hal'
    cases hal'
    rw [e, (hgs.inj h').2]
    rfl
  have hc := pow_ne_zero 2 k.c_pos.ne'
  rw [← C44_refuted_iff k hΓ hn]
  constructor
  · intro hall
    have : Γ = Γ' := by
      funext i j l
      rw [← hall, ht, lc_symbolic hlc hc hF]
    rw [this]
    exact hlc
  · intro hlc' i j l
    rw [ht, lc_symbolic hlc' hc hF]

/-- **C140** (Kerr–Newman).  The same for an uncharged `KerrNewman` hole, without exceptions. -/
theorem C140_kerrNewman {M a q eps al : ℝ} (hal : Num.alpha k M a = .ok al) (m : MetricV (Fn.SmoothFn U)) (G : Fin 4 → Fin 4 → (Fin 4 → ℝ) → ℝ)
    (h : Fn.Describes m G)
    (hG : ∀ y ∈ U, ∃ coords, Predef.Returns (Predef.kerrNewman (Predef.atPoint y) k.c k.G eps (2 * k.G * M / k.c ^ 2) al 0) coords
      (Matrix.of fun i j => G i j y)) :
    Returns (christoffelFromMetric (Fn.diffD U m.syms) m) fun t => ∀ (x : U) (Γ : Tab3),
      KerrNewman.christoffels k (KerrNewman.new k "BoyerLindquist" M a 0 q) x = .ok Γ → ∀ i j l : Fin 4, (t.arr.get [(i : ℕ), j, l]).1 x = Γ i j l := by
  obtain ⟨t, e, ht⟩ := (Fn.C139_functions m G h).1
  refine ⟨t, e, fun x Γ hΓ i j l => ?_⟩
  rw [ht]
  obtain ⟨G', hn, hlc⟩ := C68_kn_levi_civita k hΓ
  obtain ⟨hr, -⟩ := (kn_christoffels_iff k).mp hΓ
  refine lc_symbolic hlc (pow_ne_zero 2 k.c_pos.ne') ?_ i j l
  have hcont : Continuous fun y : Vec4 => y 1 ^ 2 + al ^ 2 * Real.cos (y 2) ^ 2 := by fun_prop
  have hS : x.1 1 ^ 2 + al ^ 2 * Real.cos (x.1 2) ^ 2 ≠ 0 := by
    have := alpha_ok (M := M) k hr.1
    rw [hal] at this
    cases this
    have h1 : sigF (alF k M a) (x.1 1) (x.1 2) ≠ 0 := hr.2.1
    rwa [sigF, mul_pow] at h1
  filter_upwards [hn, U.isOpen.mem_nhds x.2, hcont.continuousAt.eventually_ne hS] with y hy hyU hyS p q
  obtain ⟨coords, gs, hgs, e⟩ := Predef.C85_kerrNewman_partial (eps := eps) k hy hal hyS
  obtain ⟨coords', h'⟩ := hG y hyU
  rw [e, (hgs.inj h').2]
  rfl

/-- **C139** (geodesics).  Let a symbolic metric object describe the space-time named by `s`, `ps` on `U`, and let a curve in `U` solve the geodesic
equation written with the values of `ChristoffelSymbols.from_metric`.  Then `Geodesic`, started from its initial data, follows that curve: every row
is as close to it as the order of the method says. -/
theorem C139_geodesics (s : String) (ps : List ℝ) (a Q : ℝ) (hn : NamedMetric s ps a Q) (m : MetricV (Fn.SmoothFn U))
    (h : Fn.Describes m (blCov a Q)) :
    Returns (christoffelFromMetric (Fn.diffD U m.syms) m) fun t => ∀ (tl : Bool) (q v : ℝ → V4) (t₀ t₁ : ℝ), t₀ ≤ 0 → 0 ≤ t₁ →
      (∀ w ∈ Set.Icc t₀ t₁, ∀ᶠ u in 𝓝 w, ∃ hU : q u ∈ U, ∀ i, HasDerivAt (fun u => q u i) (v u i) u ∧
        HasDerivAt (fun u => v u i) (-∑ j : Fin 4, ∑ l : Fin 4, (t.arr.get [(i : ℕ), j, l]).1 ⟨q u, hU⟩ * v u j * v u l) u) →
      (∀ u ∈ Set.Icc t₀ t₁, Exterior a Q (q u)) → q 0 0 = 0 → (Matrix.of fun i j => blCov a Q i j (q 0))⁻¹ 0 0 ≠ 0 →
      (∑ i, ∑ j, blCov a Q i j (q 0) * v 0 i * v 0 j = if tl then -1 else 0) → 0 ≤ v 0 0 →
      ∀ (order : ℤ), (order = 2 ∨ order = 4 ∨ order = 6 ∨ order = 8) → ∀ (omega : ℝ) (p : ℕ), (p = 2 ∨ (order = 4 ∧ p = 4)) →
      ∃ K δ₀ : ℝ, 0 < δ₀ ∧ ∀ (rc : Bool) (kw : GeoKw), kw.omega = omega → kw.order = order →
        0 < kw.steps → |kw.delta| < δ₀ → kw.steps * kw.delta ∈ Set.Icc t₀ t₁ →
        ∃ o, Geodesic.new (.str s) (some ps) (fun i => q 0 i.succ) (fun i => ∑ j, blCov a Q i.succ j (q 0) * v 0 j) tl rc kw = .ok o ∧
          ∀ n : ℕ, (n : ℤ) < kw.steps →
            ∃ x u : V4, o.rows[n]? = some (rowOf (if rc then "Cartesian" else "Spherical Polar") x u) ∧
              ∀ i, |x i - q ((n + 1) * kw.delta) i| ≤ K * |kw.delta| ^ p := by
  obtain ⟨t, e, ht⟩ := (Fn.C139_functions m _ h).1
  refine ⟨t, e, fun tl q v t₀ t₁ h0 h1 hq hext hq0 htt hnorm hfut order ho omega p hp => ?_⟩
  have hgeo : ∀ w ∈ Set.Icc t₀ t₁, ∀ᶠ u in 𝓝 w, IsGeodesicAt (blCov a Q) q v u := fun w hw => by
    filter_upwards [hq w hw] with u hu
    obtain ⟨hU, hd⟩ := hu
    refine ⟨fun i => (hd i).1, fun i => (hd i).2.congr_deriv ?_⟩
    refine congrArg Neg.neg (Finset.sum_congr rfl fun j _ => Finset.sum_congr rfl fun l _ => ?_)
    rw [ht, Fn.christoffel, christoffelOf]
    congr 3
    refine Finset.sum_congr rfl fun r _ => ?_
    show _ * (partialAt (blCov a Q r j) (q u) l + partialAt (blCov a Q r l) (q u) j - _) = _
    rw [add_comm (partialAt (blCov a Q r j) (q u) l)]
    rfl
  obtain ⟨K, δ₀, hδ, hK⟩ := C107_named s ps a Q hn tl q v t₀ t₁ h0 h1 hgeo hext hq0 htt hnorm hfut
    order ho omega p hp
  refine ⟨K, δ₀, hδ, fun rc kw k1 k2 k3 k4 k5 => ?_⟩
  obtain ⟨o, ho1, -, ho3⟩ := hK rc kw k1 k2 k3 k4 k5
  refine ⟨o, ho1, fun n hn => ?_⟩
  obtain ⟨x, u, hx, hxu⟩ := ho3 n hn
  exact ⟨x, u, hx, fun i => (hxu i).1⟩

/-! ## the hypotheses can be met -/

/-- The exterior as an open set. -/
def extOpen (a Q : ℝ) : TopologicalSpace.Opens (Fin 4 → ℝ) := ⟨{y | Exterior a Q y}, Num.exterior_open a Q⟩

theorem blCov_smooth (a Q : ℝ) (i j : Fin 4) : ContDiffOn ℝ ∞ (blCov a Q i j) (extOpen a Q) := by
  have hS : ∀ y ∈ (extOpen a Q : Set (Fin 4 → ℝ)), y 1 ^ 2 + a ^ 2 * Real.cos (y 2) ^ 2 ≠ 0 := fun y hy => hy.1
  have hD : ∀ y ∈ (extOpen a Q : Set (Fin 4 → ℝ)), y 1 ^ 2 - 2 * y 1 + a ^ 2 + Q ^ 2 ≠ 0 := fun y hy => hy.2.1
  unfold blCov
  fin_cases i <;> fin_cases j <;> simp [knCov] <;> fun_prop (disch := assumption)

/-- A symbolic metric object describing the named space-times outside ring, horizons and axis. -/
noncomputable def knMetric (a Q : ℝ) : MetricV (Fn.SmoothFn (extOpen a Q)) :=
  ⟨NDArr.ofMatrix (Matrix.of fun i j => Fn.ofFn (blCov a Q i j) (blCov_smooth a Q i j)), ['l', 'l'], ["t", "r", "theta", "phi"], none⟩

theorem knMetric_describes (a Q : ℝ) : Fn.Describes (knMetric a Q) (blCov a Q) := by
  refine Fn.describes_of _ _ ?_ ?_ _ rfl (by decide)
  · intro i j y _
    fin_cases i <;> fin_cases j <;> rfl
  · intro y hy
    have h := knContra_inverse a Q _ _ hy.1 hy.2.1 hy.2.2
    intro h0
    have := congrArg Matrix.det h
    rw [Matrix.det_mul, Matrix.det_one] at this
    have e : (knCov a Q (y 1) (y 2)).det = 0 := h0
    rw [e, mul_zero] at this
    exact zero_ne_one this

/-- In units `c = G = M = 1` the predefined symbolic Schwarzschild metric, as functions outside the horizon: the hypotheses of `C140_schwarzschild` are met. -/
theorem schSymbolic_example : ∃ m : MetricV (Fn.SmoothFn (extOpen 0 0)), Fn.Describes m (fun i j y => -blCov 0 0 i j y) ∧
    ∀ y ∈ extOpen 0 0, ∃ coords, Predef.Returns (Predef.schwarzschild (Predef.atPoint y) unitConst.c (2 * unitConst.G * 1 / unitConst.c ^ 2)) coords
      (Matrix.of fun i j => -blCov 0 0 i j y) := by
  refine ⟨⟨NDArr.ofMatrix (Matrix.of fun i j => Fn.ofFn (fun y => -blCov 0 0 i j y) (blCov_smooth 0 0 i j).neg), ['l', 'l'],
    ["t", "r", "theta", "phi"], none⟩, Fn.describes_of _ _ ?_ ?_ _ rfl (by decide), ?_⟩
  · intro i j y _
    fin_cases i <;> fin_cases j <;> rfl
  · intro y hy
    have h := knContra_inverse 0 0 _ _ hy.1 hy.2.1 hy.2.2
    intro h0
    have e0 : (Matrix.of fun i j => -blCov 0 0 i j y) = -knCov 0 0 (y 1) (y 2) := rfl
    rw [e0, Matrix.det_neg] at h0
    have := congrArg Matrix.det h
    rw [Matrix.det_mul, Matrix.det_one] at this
    have e : (knCov 0 0 (y 1) (y 2)).det = 0 := by simpa using h0
    rw [e, mul_zero] at this
    exact zero_ne_one this
  · intro y hy
    obtain ⟨hr, h2, hs⟩ := exterior_sch hy
    refine ⟨["t", "r", "theta", "phi"], ?_⟩
    have h := Predef.returns_schwarzschild (F := Predef.atPoint y) unitConst.c (2 * unitConst.G * 1 / unitConst.c ^ 2)
    have e0 : (Matrix.of fun i j => -blCov 0 0 i j y) = -schCov (y 1) (y 2) := by rw [← knCov_schCov _ _ hr]; rfl
    rw [e0]
    convert h using 1
    ext i j
    fin_cases i <;> fin_cases j <;> simp [schCov, unitConst, Predef.atPoint_r, Predef.atPoint_theta]
    · rw [neg_div, one_div]
    · exact (mul_pow _ _ 2).symm

end Einpy
