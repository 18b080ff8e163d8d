import Verif.Curv.DiagFn
import Verif.Curv.Schur
import Verif.Curv.SpaceForm
import Mathlib.Analysis.SpecialFunctions.Trigonometric.Deriv

/-!
# C152: Birkhoff's theorem (with a cosmological constant)

The Ricci tensor `RicciTensor.from_metric` (src/einsteinpy/symbolic/ricci.py:97-109) returns for a spherically symmetric metric in the areal radius is `Λ g`
exactly if the metric is a Schwarzschild-de Sitter metric up to the choice of the time coordinate.
-/

set_option linter.unusedSimpArgs false

namespace Einpy.Fn
open scoped Topology ContDiff

/-- the coordinates `(t, r, θ, φ)` with `t ∈ I`, `r ∈ J` and `0 < θ < π` -/
def region (I J : TopologicalSpace.Opens ℝ) : TopologicalSpace.Opens (Fin 4 → ℝ) :=
  ⟨{x | x 0 ∈ I ∧ x 1 ∈ J ∧ 0 < x 2 ∧ x 2 < Real.pi},
    (I.isOpen.preimage (continuous_apply 0)).inter ((J.isOpen.preimage (continuous_apply 1)).inter
      ((isOpen_lt continuous_const (continuous_apply 2)).inter (isOpen_lt (continuous_apply 2) continuous_const)))⟩

/-- the general spherically symmetric metric in the areal radius: `A(t,r) dt² + B(t,r) dr² + r² (dθ² + sin²θ dφ²)` -/
noncomputable def roundG (A B : ℝ → ℝ → ℝ) (i j : Fin 4) (x : Fin 4 → ℝ) : ℝ :=
  if i = j then ![A (x 0) (x 1), B (x 0) (x 1), x 1 ^ 2, x 1 ^ 2 * Real.sin (x 2) ^ 2] i else 0

variable {I J : TopologicalSpace.Opens ℝ} {A B : ℝ → ℝ → ℝ} {m : MetricV (SmoothFn (region I J))}

theorem round_r (h0 : (0 : ℝ) ∉ J) (x : region I J) : (x : Fin 4 → ℝ) 1 ≠ 0 := fun e => h0 (e ▸ x.2.2.1)

theorem round_sin (x : region I J) : Real.sin ((x : Fin 4 → ℝ) 2) ≠ 0 := (Real.sin_pos_of_pos_of_lt_pi x.2.2.2.1 x.2.2.2.2).ne'

theorem round_ne (h : Describes m (roundG A B)) (i : Fin 4) (x : region I J) : roundG A B i i x ≠ 0 := by
  have e := describes_det h x.2
  have e2 : (Matrix.of fun i j => roundG A B i j x) = Matrix.diagonal fun i => roundG A B i i x := by
    ext i j
    by_cases hij : i = j
    · subst hij; simp
    · simp [roundG, hij]
  rw [e2, Matrix.det_diagonal] at e
  exact fun e0 => e (Finset.prod_eq_zero (Finset.mem_univ i) e0)

theorem round_setup (h0 : (0 : ℝ) ∉ J) (h : Describes m (roundG A B)) :
    ∃ (g : Matrix (Fin 4) (Fin 4) (SmoothFn (region I J))) (hh u : Fin 4 → SmoothFn (region I J)) (P : Fin 4 → Fin 4 → SmoothFn (region I J)) (c q r : SmoothFn (region I J)),
      IsUnit g.det ∧ (∀ i j x, (g i j).1 x = roundG A B i j x) ∧ (∀ i, g i i = hh i) ∧ (∀ i j, i ≠ j → g i j = 0) ∧ (∀ i x, ev x (hh i) = roundG A B i i x) ∧
      (∀ i, hh i * u i = 1) ∧ (∀ i j, partialD _ i (hh j) = 2 * hh j * P i j) ∧ Geo.RoundDerivs (partialD _) P c q ∧
      (∀ x, ev x c = ((x : Fin 4 → ℝ) 1)⁻¹) ∧ (∀ x, ev x r = (x : Fin 4 → ℝ) 1) ∧ partialD _ 1 r = 1 ∧ partialD _ 0 r = 0 := by
  have hne := round_ne h
  obtain ⟨-, g, hS, hG⟩ := h
  have hu := hS.reps.2.1
  have hdiag : ∀ i j, i ≠ j → g i j = 0 := fun i j hij => by
    refine fn_ext fun x => ?_
    have e : ev x (g i j) = roundG A B i j x := hG i j x
    rw [e, map_zero]
    simp [roundG, hij]
  have hun : ∀ i, ∃ v, g i i * v = 1 := fun i => (isUnit_of (g i i) fun x => by rw [hG]; exact hne i x).exists_right_inv
  choose u hgu using hun
  obtain ⟨P, hPd⟩ : ∃ P : Fin 4 → Fin 4 → SmoothFn (region I J), ∀ i j, P i j = Geo.half (partialD _ i (g j j) * u j) := ⟨_, fun _ _ => rfl⟩
  obtain ⟨r, hr⟩ : ∃ r : SmoothFn (region I J), ∀ x, r.1 x = (x : Fin 4 → ℝ) 1 := ⟨ofFn (fun x => x 1) (by fun_prop), fun _ => rfl⟩
  obtain ⟨c, hc⟩ : ∃ c : SmoothFn (region I J), ∀ x, c.1 x = ((x : Fin 4 → ℝ) 1)⁻¹ :=
    ⟨ofFn (fun x => (x 1)⁻¹) (ContDiffOn.inv (by fun_prop) fun x hx => round_r h0 ⟨x, hx⟩), fun _ => rfl⟩
  obtain ⟨q, hq⟩ : ∃ q : SmoothFn (region I J), ∀ x, q.1 x = Real.cos ((x : Fin 4 → ℝ) 2) / Real.sin ((x : Fin 4 → ℝ) 2) :=
    ⟨ofFn (fun x => Real.cos (x 2) / Real.sin (x 2)) (ContDiffOn.div (Real.contDiff_cos.comp (contDiff_apply ℝ ℝ (2 : Fin 4))).contDiffOn
      (Real.contDiff_sin.comp (contDiff_apply ℝ ℝ (2 : Fin 4))).contDiffOn fun x hx => round_sin ⟨x, hx⟩), fun _ => rfl⟩
  have hgv : ∀ i x, ev x (g i i) = roundG A B i i x := fun i x => hG i i x
  have huv : ∀ i x, ev x (u i) = (roundG A B i i x)⁻¹ := fun i x => by
    have := congrArg (ev x) (hgu i)
    rw [map_mul, map_one, hgv] at this
    exact eq_inv_of_mul_eq_one_right this
  have hPv : ∀ i j x, ev x (P i j) = pd (roundG A B j j) i x * (roundG A B j j x)⁻¹ / 2 := fun i j x => by
    have e : ev x (partialD _ i (g j j)) = pd (roundG A B j j) i x := partialD_pd _ _ (hG j j) i x
    rw [hPd, ev_smul, map_mul, e, huv]
    push_cast
    ring
  have g0 : roundG A B 0 0 = fun x => A (x 0) (x 1) := by funext x; simp [roundG]
  have g1 : roundG A B 1 1 = fun x => B (x 0) (x 1) := by funext x; simp [roundG]
  have g2 : roundG A B 2 2 = fun x => x 1 ^ 2 := by funext x; simp [roundG]
  have g3 : roundG A B 3 3 = fun x => x 1 ^ 2 * Real.sin (x 2) ^ 2 := by funext x; simp [roundG]
  have hrv : ∀ x : region I J, (x : Fin 4 → ℝ) 1 ≠ 0 := round_r h0
  have hsv : ∀ x : region I J, Real.sin ((x : Fin 4 → ℝ) 2) ≠ 0 := round_sin
  refine ⟨g, fun i => g i i, u, P, c, q, r, hu, hG, fun _ => rfl, hdiag, fun i x => hG i i x, hgu, fun i j => ?_, ?_, hc, hr, ?_, ?_⟩
  · refine fn_ext fun x => ?_
    have e : ev x (partialD _ i (g j j)) = pd (roundG A B j j) i x := partialD_pd _ _ (hG j j) i x
    rw [map_mul, map_mul, e, hPv, hgv, map_ofNat]
    have := hne j x
    field_simp
  · refine ⟨?_, ?_, ?_, ?_, ?_, ?_, ?_, ?_, ?_, ?_, ?_, ?_, ?_, ?_⟩ <;> refine fn_ext fun x => ?_
    · rw [hPv, g0]; simp [pd]
    · rw [hPv, g0]; simp [pd]
    · rw [hPv, g1]; simp [pd]
    · rw [hPv, g1]; simp [pd]
    · rw [hPv, g2]; simp [pd]
    · rw [hPv, g2]; simp [pd]
    · rw [hPv, g2]; simp [pd]
    · rw [hPv, g3]; simp [pd]
    · rw [hPv, g3]; simp [pd]
    · rw [hPv, g2]
      have e : ev x c = ((x : Fin 4 → ℝ) 1)⁻¹ := hc x
      have := hrv x
      rw [e]; simp [pd]; field_simp
    · rw [hPv, g3]
      have e : ev x c = ((x : Fin 4 → ℝ) 1)⁻¹ := hc x
      have := hrv x
      have := hsv x
      rw [e]; simp [pd]; field_simp
    · rw [hPv, g3]
      have e : ev x q = Real.cos ((x : Fin 4 → ℝ) 2) / Real.sin ((x : Fin 4 → ℝ) 2) := hq x
      have := hrv x
      have := hsv x
      rw [e]; simp [pd]; field_simp
    · have e : ev x c = ((x : Fin 4 → ℝ) 1)⁻¹ := hc x
      have e1 : ev x (partialD _ 1 c) = pd (fun x : Fin 4 → ℝ => (x 1)⁻¹) 1 x := partialD_pd c (fun x => (x 1)⁻¹) hc 1 x
      rw [e1, map_neg, map_pow, e]
      simp [pd]
    · have e : ev x q = Real.cos ((x : Fin 4 → ℝ) 2) / Real.sin ((x : Fin 4 → ℝ) 2) := hq x
      have e1 : ev x (partialD _ 2 q) = pd (fun x : Fin 4 → ℝ => Real.cos (x 2) / Real.sin (x 2)) 2 x := partialD_pd q (fun x => Real.cos (x 2) / Real.sin (x 2)) hq 2 x
      rw [e1, map_neg, map_add, map_pow, e, map_one]
      have h1 := hsv x
      have h2 : HasDerivAt (fun s => Real.cos s / Real.sin s) ((-Real.sin ((x : Fin 4 → ℝ) 2) * Real.sin ((x : Fin 4 → ℝ) 2) - Real.cos ((x : Fin 4 → ℝ) 2) * Real.cos ((x : Fin 4 → ℝ) 2)) / Real.sin ((x : Fin 4 → ℝ) 2) ^ 2) ((x : Fin 4 → ℝ) 2) :=
        (Real.hasDerivAt_cos _).div (Real.hasDerivAt_sin _) h1
      have h3 : pd (fun x : Fin 4 → ℝ => Real.cos (x 2) / Real.sin (x 2)) 2 x = deriv (fun s => Real.cos s / Real.sin s) ((x : Fin 4 → ℝ) 2) := by simp [pd]
      rw [h3, h2.deriv]
      field_simp
      ring
  · refine fn_ext fun x => ?_
    have e1 : ev x (partialD _ 1 r) = pd (fun x : Fin 4 → ℝ => x 1) 1 x := partialD_pd r (fun x => x 1) hr 1 x
    rw [e1, map_one]
    simp [pd]
  · refine fn_ext fun x => ?_
    have e1 : ev x (partialD _ 0 r) = pd (fun x : Fin 4 → ℝ => x 1) 0 x := partialD_pd r (fun x => x 1) hr 0 x
    rw [e1, map_zero]
    simp [pd]

theorem line_const {n : ℕ} {U : TopologicalSpace.Opens (Fin n → ℝ)} (f : SmoothFn U) (F : (Fin n → ℝ) → ℝ) (hF : ∀ x : U, f.1 x = F x) (k : Fin n)
    (hf : partialD U k f = 0) (x : Fin n → ℝ) (S : TopologicalSpace.Opens ℝ) (hS : IsPreconnected (S : Set ℝ)) (hx : ∀ s ∈ S, Function.update x k s ∈ U)
    {s s' : ℝ} (hs : s ∈ S) (hs' : s' ∈ S) : F (Function.update x k s) = F (Function.update x k s') := by
  have key := S.isOpen.is_const_of_deriv_eq_zero (f := fun s => ext U f.1 (Function.update x k s)) hS (fun s hs => ?_) (fun s hs => ?_) hs hs'
  · have e1 := ext_of (f := f.1) (⟨_, hx s hs⟩ : U)
    have e2 := ext_of (f := f.1) (⟨_, hx s' hs'⟩ : U)
    rw [hF] at e1 e2
    exact e1.symm.trans (key.trans e2)
  · have h1 : DifferentiableAt ℝ (ext U f.1) (Function.update x k s) := (smoothAt f ⟨_, hx s hs⟩).differentiableAt (by simp)
    exact (h1.comp s (hasDerivAt_update x k s).differentiableAt).differentiableWithinAt
  · have h1 := partialD_pd f (ext U f.1) (fun x => (ext_of x).symm) k ⟨_, hx s hs⟩
    rw [hf] at h1
    have h2 : (0 : ℝ) = pd (ext U f.1) k (Function.update x k s) := h1
    simp only [pd, Function.update_idem, Function.update_self] at h2
    exact h2.symm

set_option maxHeartbeats 1000000 in
/-- Birkhoff's theorem for the components -/
theorem birkhoff_ricci (h0 : (0 : ℝ) ∉ J) (hI : IsPreconnected (I : Set ℝ)) (hJ : IsPreconnected (J : Set ℝ)) (h : Describes m (roundG A B)) (Λ : ℝ) :
    (∀ i j, ∀ x ∈ region I J, ricci (roundG A B) i j x = Λ * roundG A B i j x) ↔
      ∃ (k : ℝ) (F : ℝ → ℝ), ∀ t ∈ I, ∀ r ∈ J, A t r = F t * (1 - k / r - Λ / 3 * r ^ 2) ∧ B t r * (1 - k / r - Λ / 3 * r ^ 2) = 1 := by
  have hne := round_ne h
  obtain ⟨g, hh, u, P, c, q, r, hdet, hG, hg, hg0, hv, hu, hP, hR, hc, hr, hr1, hr0⟩ := round_setup h0 h
  have hric : ∀ i j (x : region I J), ev x (Geo.ricci (partialD _) g i j) = ricci (roundG A B) i j x := fun i j x => ricci_val hdet hG i j x
  have hoff : ∀ (x : region I J) (a b : Fin 4), a ≠ b → ricci (roundG A B) a b x = if (a = 0 ∧ b = 1) ∨ (a = 1 ∧ b = 0) then 2 * ev x (P 0 1) * ev x c else 0 :=
    fun x a b hab => by
      have e := Geo.round_off_fn (ev x) (d := partialD (region I J)) (h := hh) (u := u) (P := P) (c := c) (q := q) partialD_comm hu hP hR (fun f => ev x f) (fun _ => rfl) g hg hg0 a b hab
      have e2 := hric a b x
      exact Eq.trans e2.symm e
  have hon := fun x : region I J => Geo.round_on_fn (ev x) (d := partialD (region I J)) (h := hh) (u := u) (P := P) (c := c) (q := q) partialD_comm hu hP hR (fun f => ev x f) (fun _ => rfl) g hg hg0
  have on0 : ∀ x : region I J, ricci (roundG A B) 0 0 x = ev x (P 0 0) * ev x (P 0 1) - ev x (P 0 1) ^ 2 - ev x (partialD _ 0 (P 0 1)) -
      ev x (hh 0) / ev x (hh 1) * (ev x (partialD _ 1 (P 1 0)) + ev x (P 1 0) ^ 2 - ev x (P 1 0) * ev x (P 1 1) + 2 * ev x (P 1 0) * ev x c) := fun x => by
    have e := (hon x).1
    have e2 := hric 0 0 x
    exact Eq.trans e2.symm e
  have on1 : ∀ x : region I J, ricci (roundG A B) 1 1 x = ev x (P 1 1) * ev x (P 1 0) - ev x (P 1 0) ^ 2 - ev x (partialD _ 1 (P 1 0)) + 2 * ev x (P 1 1) * ev x c -
      ev x (hh 1) / ev x (hh 0) * (ev x (partialD _ 0 (P 0 1)) + ev x (P 0 1) ^ 2 - ev x (P 0 1) * ev x (P 0 0)) := fun x => by
    have e := (hon x).2.1
    have e2 := hric 1 1 x
    exact Eq.trans e2.symm e
  have on2 : ∀ x : region I J, ricci (roundG A B) 2 2 x = 1 - ev x (hh 2) / ev x (hh 1) * ev x c * (ev x (P 1 0) - ev x (P 1 1) + ev x c) := fun x => by
    have e := (hon x).2.2.1
    have e2 := hric 2 2 x
    exact Eq.trans e2.symm e
  have on3 : ∀ x : region I J, ricci (roundG A B) 3 3 x =
      ev x (hh 3) / ev x (hh 2) * (1 - ev x (hh 2) / ev x (hh 1) * ev x c * (ev x (P 1 0) - ev x (P 1 1) + ev x c)) := fun x => by
    have e := (hon x).2.2.2
    have e2 := hric 3 3 x
    exact Eq.trans e2.symm e
  clear hon hric
  obtain ⟨K, hK, hKd⟩ : ∃ K : ℝ → SmoothFn (region I J), (∀ k x, ev x (K k) = k) ∧ ∀ k i, partialD _ i (K k) = 0 := ⟨fun k => constFn _ k, fun _ _ => rfl, fun k i => constFn_d k i⟩
  have hdu := Geo.dg_du (partialD (region I J)) hu hP
  have hrv : ∀ x : region I J, (x : Fin 4 → ℝ) 1 ≠ 0 := round_r h0
  have huv : ∀ i x, ev x (u i) = (roundG A B i i x)⁻¹ := fun i x => by
    have := congrArg (ev x) (hu i)
    rw [map_mul, map_one, hv] at this
    exact eq_inv_of_mul_eq_one_right this
  have g0 : ∀ x, roundG A B 0 0 x = A (x 0) (x 1) := fun x => by simp [roundG]
  have g1 : ∀ x, roundG A B 1 1 x = B (x 0) (x 1) := fun x => by simp [roundG]
  have g2 : ∀ x, roundG A B 2 2 x = x 1 ^ 2 := fun x => by simp [roundG]
  have g3 : ∀ x, roundG A B 3 3 x = x 1 ^ 2 * Real.sin (x 2) ^ 2 := fun x => by simp [roundG]
  have hn0 : ∀ x : region I J, A ((x : Fin 4 → ℝ) 0) ((x : Fin 4 → ℝ) 1) ≠ 0 := fun x => by rw [← g0]; exact hne 0 x
  have hn1 : ∀ x : region I J, B ((x : Fin 4 → ℝ) 0) ((x : Fin 4 → ℝ) 1) ≠ 0 := fun x => by rw [← g1]; exact hne 1 x
  have hn3 : ∀ x : region I J, Real.sin ((x : Fin 4 → ℝ) 2) ≠ 0 := round_sin
  have v0 : ∀ x : region I J, ev x (hh 0) = A ((x : Fin 4 → ℝ) 0) ((x : Fin 4 → ℝ) 1) := fun x => by rw [hv, g0]
  have v1 : ∀ x : region I J, ev x (hh 1) = B ((x : Fin 4 → ℝ) 0) ((x : Fin 4 → ℝ) 1) := fun x => by rw [hv, g1]
  have v2 : ∀ x : region I J, ev x (hh 2) = (x : Fin 4 → ℝ) 1 ^ 2 := fun x => by rw [hv, g2]
  have v3 : ∀ x : region I J, ev x (hh 3) = (x : Fin 4 → ℝ) 1 ^ 2 * Real.sin ((x : Fin 4 → ℝ) 2) ^ 2 := fun x => by rw [hv, g3]
  have w1 : ∀ x : region I J, ev x (u 1) = (B ((x : Fin 4 → ℝ) 0) ((x : Fin 4 → ℝ) 1))⁻¹ := fun x => by rw [huv, g1]
  constructor
  · intro hE
    have s1 : P 0 1 = 0 := fn_ext fun x => by
      have e := hoff x 0 1 (by decide)
      rw [hE 0 1 x x.2, hc] at e
      have e0 : roundG A B 0 1 x = 0 := by simp [roundG]
      rw [e0] at e
      simp at e
      rw [map_zero]
      exact e.resolve_right (hrv x)
    have eqs : ∀ x : region I J, ev x (P 1 0) + ev x (P 1 1) = 0 ∧
        1 - (x : Fin 4 → ℝ) 1 ^ 2 / B ((x : Fin 4 → ℝ) 0) ((x : Fin 4 → ℝ) 1) * ((x : Fin 4 → ℝ) 1)⁻¹ * (ev x (P 1 0) - ev x (P 1 1) + ((x : Fin 4 → ℝ) 1)⁻¹) =
          Λ * (x : Fin 4 → ℝ) 1 ^ 2 := fun x => by
      have e0 := on0 x
      have e1 := on1 x
      have e2 := on2 x
      rw [hE 0 0 x x.2] at e0
      rw [hE 1 1 x x.2] at e1
      rw [hE 2 2 x x.2] at e2
      simp only [g0, s1, map_zero, hc, v0, v1] at e0
      simp only [g1, s1, map_zero, hc, v0, v1] at e1
      rw [g2, v2, v1, hc] at e2
      have hx0 := hn0 x
      have hx1 := hn1 x
      have hxr := hrv x
      refine ⟨?_, e2.symm⟩
      field_simp at e0 e1
      refine (mul_eq_zero.mp (?_ : A ((x : Fin 4 → ℝ) 0) ((x : Fin 4 → ℝ) 1) * (ev x (P 1 0) + ev x (P 1 1)) = 0)).resolve_left hx0
      linear_combination (e0 - e1) / 2
    have s2 : partialD _ 1 (hh 0 * hh 1) = 0 := fn_ext fun x => by
      rw [Derivation.leibniz, hP, hP]
      simp only [smul_eq_mul, map_add, map_mul, map_zero, map_ofNat]
      linear_combination 2 * ev x (hh 0) * ev x (hh 1) * (eqs x).1
    have s3 : partialD _ 1 (r * u 1 - r + K (Λ / 3) * r ^ 3) = 0 := fn_ext fun x => by
      have e2 := (eqs x).2
      have hx1 := hn1 x
      have hxr := hrv x
      rw [Derivation.map_add, Derivation.map_sub, Derivation.leibniz, Derivation.leibniz, Derivation.leibniz_pow, hdu, hr1, hKd]
      simp only [smul_eq_mul, nsmul_eq_mul, map_add, map_sub, map_neg, map_mul, map_zero, map_one, map_ofNat, map_pow, map_natCast, hK, hr, w1]
      have e3 : ev x (P 1 0) = - ev x (P 1 1) := by linear_combination (eqs x).1
      rw [e3] at e2
      push_cast
      field_simp at e2 ⊢
      linear_combination - e2
    by_cases hIe : ∃ t0, t0 ∈ I
    swap
    · exact ⟨0, 0, fun t ht => absurd ⟨t, ht⟩ hIe⟩
    by_cases hJe : ∃ r0, r0 ∈ J
    swap
    · exact ⟨0, 0, fun t ht r hr => absurd ⟨r, hr⟩ hJe⟩
    obtain ⟨t0, ht0⟩ := hIe
    obtain ⟨r0, hr0'⟩ := hJe
    have hpt : ∀ t ∈ I, ∀ r ∈ J, (![t, r, Real.pi / 2, 0] : Fin 4 → ℝ) ∈ region I J := fun t ht r hr =>
      ⟨ht, hr, by show 0 < Real.pi / 2; positivity, by show Real.pi / 2 < Real.pi; linarith [Real.pi_pos]⟩
    have ut : ∀ t t' r : ℝ, Function.update (![t, r, Real.pi / 2, 0] : Fin 4 → ℝ) 0 t' = ![t', r, Real.pi / 2, 0] := fun t t' r => by
      funext i; fin_cases i <;> simp
    have ur : ∀ t r' r : ℝ, Function.update (![t, r, Real.pi / 2, 0] : Fin 4 → ℝ) 1 r' = ![t, r', Real.pi / 2, 0] := fun t t' r => by
      funext i; fin_cases i <;> simp
    have b0 : ∀ t ∈ I, ∀ r ∈ J, B t r = B t0 r := fun t ht r hr => by
      have := line_const (hh 1) (fun x => B (x 0) (x 1)) v1 0 (by rw [hP, s1, mul_zero]) ![t, r, Real.pi / 2, 0] I hI
        (fun s hs => by rw [ut]; exact hpt s hs r hr) ht ht0
      rw [ut, ut] at this
      exact this
    have ab : ∀ t ∈ I, ∀ r ∈ J, A t r * B t r = A t r0 * B t r0 := fun t ht r hr => by
      have := line_const (hh 0 * hh 1) (fun x => A (x 0) (x 1) * B (x 0) (x 1)) (fun x => by
          have := map_mul (ev x) (hh 0) (hh 1)
          rw [v0, v1] at this
          exact this) 1 s2 ![t, r, Real.pi / 2, 0] J hJ
        (fun s hs => by rw [ur]; exact hpt t ht s hs) hr hr0'
      rw [ur, ur] at this
      exact this
    have rb : ∀ r ∈ J, r * (B t0 r)⁻¹ - r + Λ / 3 * r ^ 3 = r0 * (B t0 r0)⁻¹ - r0 + Λ / 3 * r0 ^ 3 := fun r' hr' => by
      have := line_const (r * u 1 - r + K (Λ / 3) * r ^ 3) (fun x => x 1 * (B (x 0) (x 1))⁻¹ - x 1 + Λ / 3 * x 1 ^ 3) (fun x => by
          have e : ev x (r * u 1 - r + K (Λ / 3) * r ^ 3) = (x : Fin 4 → ℝ) 1 * (B ((x : Fin 4 → ℝ) 0) ((x : Fin 4 → ℝ) 1))⁻¹ - (x : Fin 4 → ℝ) 1 + Λ / 3 * (x : Fin 4 → ℝ) 1 ^ 3 := by
            simp only [map_add, map_sub, map_mul, map_pow, hK, hr, w1]
          exact e) 1 s3 ![t0, r', Real.pi / 2, 0] J hJ
        (fun s hs => by rw [ur]; exact hpt t0 ht0 s hs) hr' hr0'
      rw [ur, ur] at this
      exact this
    refine ⟨-(r0 * (B t0 r0)⁻¹ - r0 + Λ / 3 * r0 ^ 3), fun t => A t r0 * B t r0, fun t ht r' hr' => ?_⟩
    have hr'0 : r' ≠ 0 := fun e => h0 (e ▸ hr')
    have hB : B t0 r' ≠ 0 := hn1 ⟨_, hpt t0 ht0 r' hr'⟩
    have hf : 1 - -(r0 * (B t0 r0)⁻¹ - r0 + Λ / 3 * r0 ^ 3) / r' - Λ / 3 * r' ^ 2 = (B t0 r')⁻¹ := by
      rw [← rb r' hr']
      field_simp
      ring
    rw [hf, b0 t ht r' hr']
    refine ⟨?_, mul_inv_cancel₀ hB⟩
    show A t r' = A t r0 * B t r0 * (B t0 r')⁻¹
    rw [← ab t ht r' hr', b0 t ht r' hr', mul_assoc, mul_inv_cancel₀ hB, mul_one]
  · rintro ⟨k, F, hF⟩
    have hFx : ∀ x : region I J, A ((x : Fin 4 → ℝ) 0) ((x : Fin 4 → ℝ) 1) * B ((x : Fin 4 → ℝ) 0) ((x : Fin 4 → ℝ) 1) = F ((x : Fin 4 → ℝ) 0) ∧
        (B ((x : Fin 4 → ℝ) 0) ((x : Fin 4 → ℝ) 1))⁻¹ = 1 - k / (x : Fin 4 → ℝ) 1 - Λ / 3 * (x : Fin 4 → ℝ) 1 ^ 2 := fun x => by
      obtain ⟨e1, e2⟩ := hF _ x.2.1 _ x.2.2.1
      exact ⟨by rw [e1, mul_assoc, mul_comm _ (B _ _), e2, mul_one], inv_eq_of_mul_eq_one_right e2⟩
    have r1 : r * u 1 = r - K k - K (Λ / 3) * r ^ 3 := fn_ext fun x => by
      have hxr := hrv x
      simp only [map_sub, map_mul, map_pow, hK, hr, w1, (hFx x).2]
      field_simp
    have s1 : P 0 1 = 0 := fn_ext fun x => by
      have e := congrArg (ev x) (congrArg (partialD _ 0) r1)
      rw [Derivation.map_sub, Derivation.map_sub, Derivation.leibniz, Derivation.leibniz, Derivation.leibniz_pow, hdu, hr0, hKd, hKd] at e
      simp only [smul_eq_mul, nsmul_eq_mul, map_add, map_sub, map_neg, map_mul, map_zero, map_one, map_ofNat, map_pow, map_natCast, hK, hr, w1] at e
      have hxr := hrv x
      have hx1 := hn1 x
      rw [map_zero]
      field_simp at e
      simpa [hxr] using e
    have s2 : P 1 0 = - P 1 1 := fn_ext fun x => by
      have e : ev x (partialD _ 1 (hh 0 * hh 1)) = pd (fun x : Fin 4 → ℝ => F (x 0)) 1 x := partialD_pd (hh 0 * hh 1) (fun x => F (x 0)) (fun x => by
        have := map_mul (ev x) (hh 0) (hh 1)
        rw [v0, v1, (hFx x).1] at this
        exact this) 1 x
      have e2 : pd (fun x : Fin 4 → ℝ => F (x 0)) 1 x = 0 := by simp [pd]
      rw [e2, Derivation.leibniz, hP, hP] at e
      simp only [smul_eq_mul, map_add, map_mul, map_ofNat, v0, v1] at e
      have hx0 := hn0 x
      have hx1 := hn1 x
      rw [map_neg]
      have e3 : (2 * A ((x : Fin 4 → ℝ) 0) ((x : Fin 4 → ℝ) 1) * B ((x : Fin 4 → ℝ) 0) ((x : Fin 4 → ℝ) 1)) * (ev x (P 1 0) + ev x (P 1 1)) = 0 := by linear_combination e
      have e4 := (mul_eq_zero.mp e3).resolve_left (mul_ne_zero (mul_ne_zero two_ne_zero hx0) hx1)
      linear_combination e4
    have E1 : u 1 - 2 * r * u 1 * P 1 1 = 1 - K Λ * r ^ 2 := fn_ext fun x => by
      have e := congrArg (ev x) (congrArg (partialD _ 1) r1)
      rw [Derivation.map_sub, Derivation.map_sub, Derivation.leibniz, Derivation.leibniz, Derivation.leibniz_pow, hdu, hr1, hKd, hKd] at e
      simp only [smul_eq_mul, nsmul_eq_mul, map_add, map_sub, map_neg, map_mul, map_zero, map_one, map_ofNat, map_pow, map_natCast, hK] at e ⊢
      push_cast at e
      linear_combination e
    have E2 : - 4 * u 1 * P 1 1 + 4 * r * u 1 * P 1 1 ^ 2 - 2 * r * u 1 * partialD _ 1 (P 1 1) = - 2 * K Λ * r := fn_ext fun x => by
      have e := congrArg (ev x) (congrArg (partialD _ 1) E1)
      have h2 : partialD (region I J) 1 2 = 0 := by
        rw [show (2 : SmoothFn (region I J)) = ((2 : ℕ) : SmoothFn (region I J)) by norm_num]; exact Derivation.map_natCast _ _
      rw [Derivation.map_sub, Derivation.map_sub, Derivation.leibniz, Derivation.leibniz, Derivation.leibniz, Derivation.leibniz, Derivation.leibniz_pow, hdu, hr1, hKd, h2, Derivation.map_one_eq_zero] at e
      simp only [smul_eq_mul, nsmul_eq_mul, map_add, map_sub, map_neg, map_mul, map_zero, map_one, map_ofNat, map_pow, map_natCast, hK] at e ⊢
      push_cast at e
      linear_combination e
    intro i j x' hx'
    obtain ⟨x, rfl⟩ : ∃ x : region I J, x' = x := ⟨⟨x', hx'⟩, rfl⟩
    have hx0 := hn0 x
    have hx1 := hn1 x
    have hxr := hrv x
    have hx3 := hn3 x
    have f1 := congrArg (ev x) E1
    have f2 := congrArg (ev x) E2
    simp only [map_add, map_sub, map_neg, map_mul, map_one, map_ofNat, map_pow, hK, hr, w1] at f1 f2
    by_cases hij : i = j
    · subst hij
      have e0 := on0 x
      have e1 := on1 x
      have e2 := on2 x
      have e3 := on3 x
      simp only [s1, s2, map_zero, map_neg, hc, v0, v1] at e0 e1
      rw [s2, map_neg, hc, v2, v1] at e2
      rw [s2, map_neg, hc, v2, v1, v3] at e3
      fin_cases i
      · show ricci (roundG A B) 0 0 x = Λ * roundG A B 0 0 x
        rw [e0, g0]
        field_simp at f2 ⊢
        linear_combination (-1 / 2 * A ((x : Fin 4 → ℝ) 0) ((x : Fin 4 → ℝ) 1)) * f2
      · show ricci (roundG A B) 1 1 x = Λ * roundG A B 1 1 x
        rw [e1, g1]
        field_simp at f2 ⊢
        linear_combination (-1 / 2 * A ((x : Fin 4 → ℝ) 0) ((x : Fin 4 → ℝ) 1)) * f2
      · show ricci (roundG A B) 2 2 x = Λ * roundG A B 2 2 x
        rw [e2, g2]
        field_simp at f1 ⊢
        linear_combination - f1
      · show ricci (roundG A B) 3 3 x = Λ * roundG A B 3 3 x
        rw [e3, g3]
        field_simp at f1 ⊢
        linear_combination - f1
    · rw [hoff x i j hij, s1, map_zero]
      simp [roundG, hij]

theorem einstein_iff {n : ℕ} {U : TopologicalSpace.Opens (Fin n → ℝ)} {m : MetricV (SmoothFn U)} {G : Fin n → Fin n → (Fin n → ℝ) → ℝ} (h : Describes m G) (hn : n = 4) (Λ : ℝ)
    {x : Fin n → ℝ} (hx : x ∈ U) : (∀ i j, einstein G i j x + Λ * G i j x = 0) ↔ ∀ i j, ricci G i j x = Λ * G i j x := by
  have hn' : (n : ℝ) = 4 := by rw [hn]; norm_num
  constructor
  · intro hE
    have h1 := trace_inv h hx (fun i j => einstein G i j x) (-Λ) (fun i j => by linear_combination hE i j)
    have h2 := trace_inv h hx (fun i j => 1 / 2 * scalar G x * G i j x) (1 / 2 * scalar G x) (fun i j => rfl)
    have h3 : ∑ a, ∑ b, (Matrix.of fun a b => G a b x)⁻¹ a b * einstein G a b x = scalar G x - ∑ a, ∑ b, (Matrix.of fun a b => G a b x)⁻¹ a b * (1 / 2 * scalar G x * G a b x) := by
      conv_rhs => rw [scalar]
      rw [← Finset.sum_sub_distrib]
      refine Finset.sum_congr rfl fun a _ => ?_
      rw [← Finset.sum_sub_distrib]
      refine Finset.sum_congr rfl fun b _ => ?_
      rw [einstein, scalar]
      ring
    rw [h1, h2, hn'] at h3
    intro i j
    have h4 := hE i j
    rw [einstein] at h4
    linear_combination h4 + (1 / 2 * G i j x) * h3
  · intro hR i j
    have h1 : scalar G x = n * Λ := trace_inv h hx (fun i j => ricci G i j x) Λ (fun i j => hR i j)
    rw [einstein, hR, h1, hn']
    ring

/-- **C152 (Birkhoff).**  Let the components of a metric object be `A(t,r) dt² + B(t,r) dr² + r² (dθ² + sin²θ dφ²)`, on any interval of times `t` and any interval of radii
`r` without zero.  The Ricci tensor returned is `Λ g` everywhere exactly if there are a number `k` and a function `F` of the time with `A = F(t) f(r)` and
`B = 1 / f(r)`, where `f(r) = 1 - k/r - Λ r²/3`; the same is the case exactly if the Einstein tensor returned satisfies the vacuum field equations
`G_ij + Λ g_ij = 0`. -/
theorem C152_birkhoff (I J : TopologicalSpace.Opens ℝ) (hI : IsPreconnected (I : Set ℝ)) (hJ : IsPreconnected (J : Set ℝ)) (h0 : (0 : ℝ) ∉ J)
    (A B : ℝ → ℝ → ℝ) (m : MetricV (SmoothFn (region I J))) (h : Describes m (roundG A B)) (Λ : ℝ) :
    ((Returns (ricciFromMetric (diffD (region I J) m.syms) m) fun t => ∀ (i j : Fin 4) (x : region I J), (t.arr.get [(i : ℕ), j]).1 x = Λ * roundG A B i j x) ↔
      ∃ (k : ℝ) (F : ℝ → ℝ), ∀ t ∈ I, ∀ r ∈ J, A t r = F t * (1 - k / r - Λ / 3 * r ^ 2) ∧ B t r * (1 - k / r - Λ / 3 * r ^ 2) = 1) ∧
    ((Returns (einsteinFromMetric (diffD (region I J) m.syms) m) fun t => ∀ (i j : Fin 4) (x : region I J), (t.arr.get [(i : ℕ), j]).1 x + Λ * roundG A B i j x = 0) ↔
      ∃ (k : ℝ) (F : ℝ → ℝ), ∀ t ∈ I, ∀ r ∈ J, A t r = F t * (1 - k / r - Λ / 3 * r ^ 2) ∧ B t r * (1 - k / r - Λ / 3 * r ^ 2) = 1) := by
  obtain ⟨-, -, ⟨t, et, ht⟩, -, ⟨e, ee, he⟩, -⟩ := C139_functions m (roundG A B) h
  have key := birkhoff_ricci h0 hI hJ h Λ
  refine ⟨?_, ?_⟩
  · rw [← key]
    constructor
    · rintro ⟨t', et', ht'⟩ i j x hx
      have : t' = t := by rw [et] at et'; exact (Except.ok.inj et').symm
      subst this
      rw [← ht i j ⟨x, hx⟩]
      exact ht' i j ⟨x, hx⟩
    · exact fun hr => ⟨t, et, fun i j x => by rw [ht]; exact hr i j x x.2⟩
  · rw [← key]
    constructor
    · rintro ⟨e', ee', he'⟩ i j x hx
      have : e' = e := by rw [ee] at ee'; exact (Except.ok.inj ee').symm
      subst this
      refine (einstein_iff h rfl Λ hx).mp (fun i j => ?_) i j
      rw [← he i j ⟨x, hx⟩]
      exact he' i j ⟨x, hx⟩
    · exact fun hr => ⟨e, ee, fun i j x => by rw [he]; exact (einstein_iff h rfl Λ x.2).mpr (fun i j => hr i j x x.2) i j⟩

/-! ## examples -/

/-- every pair of smooth nonvanishing functions gives a metric object -/
theorem round_describes (I J : TopologicalSpace.Opens ℝ) (h0 : (0 : ℝ) ∉ J) (A B : ℝ → ℝ → ℝ) (hA : ContDiffOn ℝ ∞ (fun x : Fin 4 → ℝ => A (x 0) (x 1)) (region I J))
    (hB : ContDiffOn ℝ ∞ (fun x : Fin 4 → ℝ => B (x 0) (x 1)) (region I J)) (hA0 : ∀ t ∈ I, ∀ r ∈ J, A t r ≠ 0) (hB0 : ∀ t ∈ I, ∀ r ∈ J, B t r ≠ 0) :
    ∃ m : MetricV (SmoothFn (region I J)), Describes m (roundG A B) := by
  refine ⟨_, describes_of (U := region I J) (roundG A B) (fun i j => ?_) (fun i j x _ => ?_) (fun x hx => ?_) ["t", "r", "theta", "phi"] rfl (by decide)⟩
  · by_cases hij : i = j
    · subst hij
      fin_cases i
      · exact hA.congr fun x _ => by simp [roundG]
      · exact hB.congr fun x _ => by simp [roundG]
      · exact (ContDiff.contDiffOn (f := fun x : Fin 4 → ℝ => x 1 ^ 2) (by fun_prop)).congr fun x _ => by simp [roundG]
      · exact (ContDiff.contDiffOn (f := fun x : Fin 4 → ℝ => x 1 ^ 2 * Real.sin (x 2) ^ 2) (by fun_prop)).congr fun x _ => by simp [roundG]
    · exact (contDiffOn_const (c := (0 : ℝ))).congr fun x _ => by simp [roundG, hij]
  · by_cases hij : i = j
    · rw [hij]
    · simp [roundG, hij, Ne.symm hij]
  · have e2 : (Matrix.of fun i j => roundG A B i j x) = Matrix.diagonal fun i => roundG A B i i x := by
      ext i j
      by_cases hij : i = j
      · subst hij; simp
      · simp [roundG, hij]
    rw [e2, Matrix.det_diagonal]
    refine Finset.prod_ne_zero_iff.mpr fun i _ => ?_
    fin_cases i
    · simpa [roundG] using hA0 _ hx.1 _ hx.2.1
    · simpa [roundG] using hB0 _ hx.1 _ hx.2.1
    · simpa [roundG] using round_r h0 ⟨x, hx⟩
    · simpa [roundG] using ⟨round_r h0 ⟨x, hx⟩, round_sin ⟨x, hx⟩⟩

/-- the radii outside the horizon of the Schwarzschild metric with radius 2 -/
def outside : TopologicalSpace.Opens ℝ := ⟨Set.Ioi 2, isOpen_Ioi⟩

/-- the Schwarzschild metric, with a time coordinate that is not the usual one: the Ricci tensor returned is zero -/
example : ∃ m : MetricV (SmoothFn (region ⊤ outside)), Describes m (roundG (fun t r => -(1 + t ^ 2) * (1 - 2 / r)) fun _ r => 1 / (1 - 2 / r)) ∧
    Returns (ricciFromMetric (diffD (region ⊤ outside) m.syms) m) fun t => ∀ (i j : Fin 4) (x : region ⊤ outside), (t.arr.get [(i : ℕ), j]).1 x = 0 := by
  have hpos : ∀ r ∈ outside, (0 : ℝ) < 1 - 2 / r := fun r hr => by
    have hr : (2 : ℝ) < r := hr
    rw [sub_pos, div_lt_one (by linarith)]; exact hr
  have h0 : (0 : ℝ) ∉ outside := fun h => by
    have : (2 : ℝ) < 0 := h
    linarith
  have hd : ContDiffOn ℝ ∞ (fun x : Fin 4 → ℝ => 1 - 2 / x 1) (region ⊤ outside) :=
    contDiffOn_const.sub (contDiffOn_const.div (by fun_prop) fun x hx => round_r h0 ⟨x, hx⟩)
  obtain ⟨m, hm⟩ := round_describes ⊤ outside h0 (fun t r => -(1 + t ^ 2) * (1 - 2 / r)) (fun _ r => 1 / (1 - 2 / r))
    ((ContDiff.contDiffOn (f := fun x : Fin 4 → ℝ => -(1 + x 0 ^ 2)) (by fun_prop)).mul hd) (contDiffOn_const.div hd fun x hx => (hpos _ hx.2.1).ne')
    (fun t _ r hr => mul_ne_zero (by nlinarith [sq_nonneg t]) (hpos r hr).ne') (fun t _ r hr => one_div_ne_zero (hpos r hr).ne')
  have hpre : IsPreconnected ((⊤ : TopologicalSpace.Opens ℝ) : Set ℝ) := isPreconnected_univ
  have hpre2 : IsPreconnected (outside : Set ℝ) := isPreconnected_Ioi
  refine ⟨m, hm, ?_⟩
  obtain ⟨t, et, ht⟩ := (C152_birkhoff ⊤ outside hpre hpre2 h0 _ _ m hm 0).1.mpr ⟨2, fun t => -(1 + t ^ 2), fun t _ r hr => by
    have := (hpos r hr).ne'
    constructor
    · ring
    · simp only [zero_div, zero_mul, sub_zero]
      exact one_div_mul_cancel this⟩
  exact ⟨t, et, fun i j x => by rw [ht, zero_mul]⟩

/-- the metric `-dt² + 2 dr² + r² dΩ²` solves the vacuum equations for no `Λ` -/
example : ∃ m : MetricV (SmoothFn (region ⊤ outside)), Describes m (roundG (fun _ _ => -1) fun _ _ => 2) ∧
    ∀ Λ : ℝ, ¬ Returns (einsteinFromMetric (diffD (region ⊤ outside) m.syms) m) fun t =>
      ∀ (i j : Fin 4) (x : region ⊤ outside), (t.arr.get [(i : ℕ), j]).1 x + Λ * roundG (fun _ _ => -1) (fun _ _ => 2) i j x = 0 := by
  have h0 : (0 : ℝ) ∉ outside := fun h => by
    have : (2 : ℝ) < 0 := h
    linarith
  obtain ⟨m, hm⟩ := round_describes ⊤ outside h0 (fun _ _ => -1) (fun _ _ => 2) contDiffOn_const contDiffOn_const (fun _ _ _ _ => by norm_num) (fun _ _ _ _ => by norm_num)
  have hpre : IsPreconnected ((⊤ : TopologicalSpace.Opens ℝ) : Set ℝ) := isPreconnected_univ
  have hpre2 : IsPreconnected (outside : Set ℝ) := isPreconnected_Ioi
  refine ⟨m, hm, fun Λ hΛ => ?_⟩
  obtain ⟨k, F, hF⟩ := (C152_birkhoff ⊤ outside hpre hpre2 h0 _ _ m hm Λ).2.mp hΛ
  have a3 := (hF 0 trivial 3 (show (2 : ℝ) < 3 by norm_num)).2
  have a4 := (hF 0 trivial 4 (show (2 : ℝ) < 4 by norm_num)).2
  have a5 := (hF 0 trivial 5 (show (2 : ℝ) < 5 by norm_num)).2
  norm_num at a3 a4 a5
  linarith

end Einpy.Fn
