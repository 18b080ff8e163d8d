import Verif.Curv.ConfFlat

/-!
# C147: Schur's lemma
-/

namespace Einpy.Fn
open scoped Topology ContDiff

variable {n : ℕ} {U : TopologicalSpace.Opens (Fin n → ℝ)} {m : MetricV (SmoothFn U)} {G : Fin n → Fin n → (Fin n → ℝ) → ℝ}

theorem trace_inv (h : Describes m G) {x : Fin n → ℝ} (hx : x ∈ U) (T : Fin n → Fin n → ℝ) (f : ℝ) (hT : ∀ a b, T a b = f * G a b x) :
    ∑ a, ∑ b, (Matrix.of fun a b => G a b x)⁻¹ a b * T a b = n * f := by
  have e : ∀ a, ∑ b, (Matrix.of fun a b => G a b x)⁻¹ a b * T a b = f := fun a => by
    have h1 := congrFun (congrFun (Matrix.nonsing_inv_mul (Matrix.of fun a b => G a b x) (isUnit_iff_ne_zero.mpr (describes_det h hx))) a) a
    rw [Matrix.mul_apply, Matrix.one_apply_eq] at h1
    have h2 : ∑ b, (Matrix.of fun a b => G a b x)⁻¹ a b * T a b = f * ∑ b, (Matrix.of fun a b => G a b x)⁻¹ a b * (Matrix.of fun a b => G a b x) b a := by
      rw [Finset.mul_sum]
      refine Finset.sum_congr rfl fun b _ => ?_
      rw [hT, Matrix.of_apply, describes_symm h a b hx]
      ring
    rw [h2, h1, mul_one]
  simp only [e, Finset.sum_const, Finset.card_univ, Fintype.card_fin, nsmul_eq_mul]

/-- **C147** (Ricci).  If on a connected open set, in dimension three or more, the Ricci tensor the library returns is at each point some multiple of the metric,
then the factor is the same at all points, and the returned Ricci scalar is the constant `n` times it. -/
theorem C147_schur_ricci (m : MetricV (SmoothFn U)) (G : Fin n → Fin n → (Fin n → ℝ) → ℝ) (h : Describes m G) (hn : 3 ≤ n) (hU : IsPreconnected (U : Set (Fin n → ℝ)))
    (f : (Fin n → ℝ) → ℝ) :
    Returns (ricciFromMetric (diffD U m.syms) m) fun r => Returns (scalarFromMetric (diffD U m.syms) m) fun s =>
      (∀ i j : Fin n, ∀ y ∈ U, value r [(i : ℕ), j] y = f y * G i j y) → ∃ c : ℝ, ∀ y (hy : y ∈ U), f y = c ∧ s.expr.1 ⟨y, hy⟩ = n * c := by
  obtain ⟨r, e, hr⟩ := (C139_functions m G h).2.2.1
  obtain ⟨s, e', hsv⟩ := (C139_functions m G h).2.2.2.1
  refine ⟨r, e, s, e', fun hf => ?_⟩
  have hv : ∀ i j : Fin n, ∀ y ∈ U, ricci G i j y = f y * G i j y := fun i j y hy => by
    rw [← hf i j y hy]
    exact ((ext_of (⟨y, hy⟩ : U)).trans (hr i j ⟨y, hy⟩)).symm
  have hsc : ∀ y ∈ U, scalar G y = n * f y := fun y hy => trace_inv h hy _ _ fun a b => hv a b y hy
  have hn0 : (n : ℝ) ≠ 0 := by
    have : 0 < n := by omega
    exact_mod_cast this.ne'
  obtain ⟨-, g, hS, hG⟩ := id h
  have hu := hS.reps.2.1
  set F : SmoothFn U := (n : ℚ)⁻¹ • Geo.scalar (partialD U) g with hF
  have hFv : ∀ x : U, ev x F = f x := fun x => by
    rw [hF, ev_smul, scalar_val hu hG, hsc x x.2]
    push_cast
    field_simp
  have hd := Geo.schur (partialD U) g hS.symm hu partialD_comm (by rw [Fintype.card_fin]; omega) F fun a b => fn_ext fun x => by
    rw [ricci_val hu hG, map_mul, hFv, hv a b x x.2]
    congr 1
    exact (hG a b x).symm
  rcases (U : Set (Fin n → ℝ)).eq_empty_or_nonempty with h0 | ⟨x0, hx0⟩
  · exact ⟨0, fun y hy => absurd (show y ∈ (U : Set _) from hy) (by rw [h0]; exact Set.notMem_empty y)⟩
  · refine ⟨f x0, fun y hy => ?_⟩
    have h1 := const_of_partialD hU F hd ⟨y, hy⟩ ⟨x0, hx0⟩
    rw [hFv, hFv] at h1
    exact ⟨h1, by rw [hsv ⟨y, hy⟩, hsc y hy, h1]⟩

/-- **C147** (Riemann).  If on a connected open set, in dimension three or more, the Riemann tensor the library returns is that of a curvature `K(y)` at each point,
`R^i_jkl = K (δ^i_k g_jl − δ^i_l g_jk)`, then `K` is constant. -/
theorem C147_schur_riemann (m : MetricV (SmoothFn U)) (G : Fin n → Fin n → (Fin n → ℝ) → ℝ) (h : Describes m G) (hn : 3 ≤ n) (hU : IsPreconnected (U : Set (Fin n → ℝ)))
    (K : (Fin n → ℝ) → ℝ) :
    Returns (riemannFromMetric (diffD U m.syms) m) fun r =>
      (∀ i j k l : Fin n, ∀ y ∈ U, value r [(i : ℕ), j, k, l] y = K y * ((if i = k then 1 else 0) * G j l y - (if i = l then 1 else 0) * G j k y)) →
        ∃ c : ℝ, ∀ y ∈ U, K y = c := by
  obtain ⟨r, e, hr⟩ := (C139_functions m G h).2.1
  refine ⟨r, e, fun hK => ?_⟩
  have hv : ∀ i j k l : Fin n, ∀ y ∈ U, riemann G i j k l y = K y * ((if i = k then 1 else 0) * G j l y - (if i = l then 1 else 0) * G j k y) := fun i j k l y hy => by
    rw [← hK i j k l y hy]
    exact ((ext_of (⟨y, hy⟩ : U)).trans (hr i j k l ⟨y, hy⟩)).symm
  obtain ⟨r', e1, s, e2, hs⟩ := C147_schur_ricci m G h hn hU fun y => (n - 1) * K y
  obtain ⟨r'', e3, hr''⟩ := (C139_functions m G h).2.2.1
  have : r' = r'' := by rw [e1] at e3; exact Except.ok.inj e3
  subst this
  obtain ⟨c, hc⟩ := hs fun i j y hy => by
    refine (ext_of (⟨y, hy⟩ : U)).trans ((hr'' i j ⟨y, hy⟩).trans ?_)
    show ricci G i j y = _
    unfold ricci
    simp only [hv _ _ _ _ y hy, if_true, ← Finset.mul_sum, Finset.sum_sub_distrib, one_mul, ite_mul, zero_mul, Finset.sum_ite_eq', Finset.mem_univ,
      Finset.sum_const, Finset.card_univ, Fintype.card_fin, nsmul_eq_mul]
    ring
  refine ⟨c / (n - 1), fun y hy => ?_⟩
  have h3 : (3 : ℝ) ≤ n := by exact_mod_cast hn
  have hne : (n : ℝ) - 1 ≠ 0 := by linarith
  rw [eq_div_iff hne, mul_comm]
  exact (hc y hy).1

/-! ## the hypotheses are met: hyperbolic space has `K = −1` -/

theorem hypOpen_connected : IsPreconnected (hypOpen : Set (Fin 4 → ℝ)) :=
  (convex_halfSpace_gt (f := fun x : Fin 4 → ℝ => x 0) ⟨fun _ _ => rfl, fun _ _ => rfl⟩ 0).isPreconnected

theorem hyp_riemann (i j k l : Fin 4) (y : Fin 4 → ℝ) (hy : y ∈ hypOpen) :
    riemann hypG i j k l y = -1 * ((if i = k then 1 else 0) * hypG j l y - (if i = l then 1 else 0) * hypG j k y) := by
  have hX : ContDiffOn ℝ ∞ (fun x : Fin 4 → ℝ => (x 0)⁻¹) hypOpen := ContDiffOn.inv (by fun_prop) fun x hx => (show 0 < x 0 from hx).ne'
  set t : SmoothFn hypOpen := ofFn (fun x => (x 0)⁻¹) hX with ht
  set a : SmoothFn hypOpen := ofFn (fun x => x 0) (by fun_prop) with ha
  have hat : a * t = 1 := fn_ext fun x => mul_inv_cancel₀ (show 0 < x.1 0 from x.2).ne'
  have hda : ∀ i, partialD hypOpen i a = if i = 0 then 1 else 0 := fun i => fn_ext fun x => by
    refine (partialD_pd _ (fun x => x 0) (fun _ => rfl) i x).trans ?_
    rw [apply_ite (ev x), map_one, map_zero]
    by_cases h : i = 0
    · subst h; simp [pd]
    · simp [pd, h, Function.update_of_ne (Ne.symm h)]
  have hdt : ∀ i, partialD hypOpen i t = -(t * t * if i = 0 then 1 else 0) := fun i => by
    have e := congrArg (partialD hypOpen i) hat
    simp only [Derivation.leibniz, smul_eq_mul, Derivation.map_one_eq_zero, hda] at e
    linear_combination t * e - (partialD hypOpen i t) * hat
  set w : Fin 4 → SmoothFn hypOpen := fun i => -(t * if i = 0 then 1 else 0) with hw
  have hw' : ∀ i, partialD hypOpen i (t * t) = 2 * (t * t * w i) := fun i => by
    simp only [Derivation.leibniz, smul_eq_mul, hdt, hw]
    ring
  have hd1 : ∀ i j : Fin 4, partialD hypOpen i (if j = 0 then (1 : SmoothFn hypOpen) else 0) = 0 := fun i j => by split_ifs <;> simp
  have hdw : ∀ i j, partialD hypOpen i (w j) = w i * w j := fun i j => by
    simp only [hw, map_neg, Derivation.leibniz, smul_eq_mul, hdt, hd1]
    ring
  have hun : IsUnit (t * t) := by
    have : IsUnit t := IsUnit.of_mul_eq_one a (by rw [mul_comm]; exact hat)
    exact this.mul this
  have hc0 : ∀ i j k, Geo.christoffel (partialD hypOpen) (1 : Matrix (Fin 4) (Fin 4) (SmoothFn hypOpen)) i j k = 0 := fun i j k => by
    have : ∀ l a b, partialD hypOpen l ((1 : Matrix (Fin 4) (Fin 4) (SmoothFn hypOpen)) a b) = 0 := fun l a b => by
      rw [Matrix.one_apply]; split_ifs <;> simp
    simp [Geo.christoffel, Geo.half, this]
  have hB : ∀ i j, Geo.confB (partialD hypOpen) 1 w i j = Geo.half (t * t * (1 : Matrix (Fin 4) (Fin 4) (SmoothFn hypOpen)) i j) := fun i j => by
    have e : Geo.wSq (1 : Matrix (Fin 4) (Fin 4) (SmoothFn hypOpen)) w = t * t := by
      simp [Geo.wSq, Geo.wUp, hw, Matrix.one_apply, Fin.sum_univ_four]
      ring
    unfold Geo.confB Geo.cov1
    rw [hdw, e]
    simp only [hc0, zero_mul, Finset.sum_const_zero]
    ring
  have hL : ∀ i j k l, Geo.riemannLow (partialD hypOpen) ((t * t) • (1 : Matrix (Fin 4) (Fin 4) (SmoothFn hypOpen))) i j k l =
      -((t * t) * (t * t) * ((1 : Matrix (Fin 4) (Fin 4) (SmoothFn hypOpen)) i k * (1 : Matrix (Fin 4) (Fin 4) (SmoothFn hypOpen)) j l
        - (1 : Matrix (Fin 4) (Fin 4) (SmoothFn hypOpen)) i l * (1 : Matrix (Fin 4) (Fin 4) (SmoothFn hypOpen)) j k)) := fun i j k l => by
    rw [Geo.conf_riemannLow (partialD hypOpen) 1 w Matrix.transpose_one (by rw [Matrix.det_one]; exact isUnit_one) (t * t) hun hw' (fun a b => by rw [hdw, hdw, mul_comm])]
    have e0 : Geo.riemannLow (partialD hypOpen) (1 : Matrix (Fin 4) (Fin 4) (SmoothFn hypOpen)) i j k l = 0 := by
      simp [Geo.riemannLow, Geo.riemann, hc0]
    have hh : ∀ y : SmoothFn hypOpen, Geo.half (t * t * y) = Geo.half (t * t) * y := fun y => by rw [Geo.half, Geo.half, smul_mul_assoc]
    have h2 := Geo.two_half (t * t)
    rw [e0]
    simp only [Geo.kulkarniNomizu, hB, hh]
    linear_combination (-(t * t) * ((1 : Matrix (Fin 4) (Fin 4) (SmoothFn hypOpen)) i k * (1 : Matrix (Fin 4) (Fin 4) (SmoothFn hypOpen)) j l
        - (1 : Matrix (Fin 4) (Fin 4) (SmoothFn hypOpen)) i l * (1 : Matrix (Fin 4) (Fin 4) (SmoothFn hypOpen)) j k)) * h2
  have huu : IsUnit ((t * t) • (1 : Matrix (Fin 4) (Fin 4) (SmoothFn hypOpen))).det := by
    rw [Matrix.det_smul, Matrix.det_one, mul_one]; exact hun.pow _
  have hGv : ∀ i j (x : hypOpen), (((t * t) • (1 : Matrix (Fin 4) (Fin 4) (SmoothFn hypOpen))) i j).1 x = hypG i j x := fun i j x => by
    show ev x (t * t * (1 : Matrix (Fin 4) (Fin 4) (SmoothFn hypOpen)) i j) = _
    have e : ev x t = (x.1 0)⁻¹ := rfl
    rw [map_mul, map_mul, e, Matrix.one_apply, apply_ite (ev x), map_one, map_zero, hypG]
    split_ifs
    · rw [sq, mul_inv, mul_one]
    · rw [mul_zero]
  have hval := riemann_val huu hGv i j k l ⟨y, hy⟩
  rw [← hval, ← Geo.raise_low (partialD hypOpen) _ huu]
  simp only [hL, map_sum, map_mul, map_neg, map_sub]
  have e : ev (⟨y, hy⟩ : hypOpen) t = (y 0)⁻¹ := rfl
  have e1 : ∀ i j, ev (⟨y, hy⟩ : hypOpen) ((1 : Matrix (Fin 4) (Fin 4) (SmoothFn hypOpen)) i j) = if i = j then 1 else 0 := fun i j => by
    rw [Matrix.one_apply, apply_ite (ev _), map_one, map_zero]
  have e2 : ∀ i j, ev (⟨y, hy⟩ : hypOpen) (((t * t) • (1 : Matrix (Fin 4) (Fin 4) (SmoothFn hypOpen)))⁻¹ i j) = y 0 ^ 2 * if i = j then 1 else 0 := fun i j => by
    rw [Geo.conf_inv 1 Matrix.transpose_one (by rw [Matrix.det_one]; exact isUnit_one) (t * t) (a * a) (by linear_combination (a * t + 1) * hat), inv_one, Matrix.smul_apply,
      smul_eq_mul, map_mul, e1, map_mul, sq]
    rfl
  have hy0 : y 0 ≠ 0 := (show 0 < y 0 from hy).ne'
  simp only [e, e1, e2, mul_ite, mul_one, mul_zero, ite_mul, zero_mul, Finset.sum_ite_eq, Finset.mem_univ, if_true, hypG]
  split_ifs <;> field_simp <;> ring

/-- both theorems apply to hyperbolic space with the curvature `K = −1` -/
theorem hyp_schur : Returns (riemannFromMetric (diffD hypOpen hypMetric.syms) hypMetric) fun r =>
    ∀ i j k l : Fin 4, ∀ y ∈ hypOpen, value r [(i : ℕ), j, k, l] y = -1 * ((if i = k then 1 else 0) * hypG j l y - (if i = l then 1 else 0) * hypG j k y) := by
  obtain ⟨r, e, hr⟩ := (C139_functions hypMetric hypG hypMetric_describes).2.1
  exact ⟨r, e, fun i j k l y hy => (ext_of (⟨y, hy⟩ : hypOpen)).trans ((hr i j k l ⟨y, hy⟩).trans (hyp_riemann i j k l y hy))⟩

end Einpy.Fn
