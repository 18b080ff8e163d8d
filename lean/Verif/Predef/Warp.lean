import Verif.Predef.Godel
import Verif.Predef.ConstCurv
import Verif.Curv.Props2

/-!
# C126: the Alcubierre metric
-/

set_option linter.unusedSectionVars false

namespace Einpy.Predef

section
variable {K : Type} [Field K] [Algebra ℚ K] {D : String → Derivation ℚ K K} {F : Fns K}

theorem warp_inv (b : K) : !![b ^ 2 - 1, -b, 0, 0; -b, 1, 0, 0; 0, 0, 1, 0; 0, 0, 0, 1] *
    !![-1, -b, 0, 0; -b, 1 - b ^ 2, 0, 0; 0, 0, 1, 0; 0, 0, 0, 1] = (1 : Matrix (Fin 4) (Fin 4) K) := by
  ext i j
  rw [Matrix.mul_apply, Fin.sum_univ_four]
  fin_cases i <;> fin_cases j <;> simp <;> ring1

theorem warp_dg (d : Fin 4 → Derivation ℚ K K) (b : K) (k i j : Fin 4) :
    d k ((!![b ^ 2 - 1, -b, 0, 0; -b, 1, 0, 0; 0, 0, 1, 0; 0, 0, 0, 1] : Matrix (Fin 4) (Fin 4) K) i j) =
      (!![2 * b * d k b, -d k b, 0, 0; -d k b, 0, 0, 0; 0, 0, 0, 0; 0, 0, 0, 0] : Matrix (Fin 4) (Fin 4) K) i j := by
  have z : d k 0 = 0 := map_zero _
  have o : d k 1 = 0 := Derivation.map_one_eq_zero _
  have n : d k (-b) = -d k b := map_neg _ _
  have h : d k (b ^ 2 - 1) = 2 * b * d k b := by
    rw [map_sub, o, Derivation.leibniz_pow]; simp; ring
  revert i j
  refine fin4_cases ?_ ?_ ?_ ?_ <;> refine fin4_cases ?_ ?_ ?_ ?_
  · exact h
  · exact n
  · exact z
  · exact z
  · exact n
  · exact o
  · exact z
  · exact z
  · exact z
  · exact z
  · exact o
  · exact z
  · exact z
  · exact z
  · exact z
  · exact o

/-- the Christoffel symbols; `p`, `q`, `s`, `w` are the derivatives of the shift by t, x, y, z -/
theorem warp_christoffel {d : Fin 4 → Derivation ℚ K K} {b p q s w : K} (h0 : d 0 b = p) (h1 : d 1 b = q) (h2 : d 2 b = s)
    (h3 : d 3 b = w) (i j k : Fin 4) :
    Geo.christoffel d !![b ^ 2 - 1, -b, 0, 0; -b, 1, 0, 0; 0, 0, 1, 0; 0, 0, 0, 1] i j k =
      ![!![b ^ 2 * q, -(b * q), -(b * s / 2), -(b * w / 2); -(b * q), q, s / 2, w / 2; -(b * s / 2), s / 2, 0, 0;
           -(b * w / 2), w / 2, 0, 0],
        !![b ^ 3 * q - b * q - p, -(b ^ 2 * q), -((b ^ 2 + 1) * s / 2), -((b ^ 2 + 1) * w / 2);
           -(b ^ 2 * q), b * q, b * s / 2, b * w / 2; -((b ^ 2 + 1) * s / 2), b * s / 2, 0, 0;
           -((b ^ 2 + 1) * w / 2), b * w / 2, 0, 0],
        !![-(b * s), s / 2, 0, 0; s / 2, 0, 0, 0; 0, 0, 0, 0; 0, 0, 0, 0],
        !![-(b * w), w / 2, 0, 0; w / 2, 0, 0, 0; 0, 0, 0, 0; 0, 0, 0, 0]] i j k := by
  have : CharZero K := algebraRat.charZero K
  rw [Geo.christoffel_of d (warp_inv b) (dg := fun k => !![2 * b * d k b, -d k b, 0, 0; -d k b, 0, 0, 0; 0, 0, 0, 0; 0, 0, 0, 0])
    (warp_dg d b), Fin.sum_univ_four]
  fin_cases i <;> fin_cases j <;> fin_cases k <;> simp [h0, h1, h2, h3] <;> ring1


theorem d_half (d : Derivation ℚ K K) (x : K) : d (x / 2) = d x / 2 := by
  have : CharZero K := algebraRat.charZero K
  rw [Derivation.leibniz_div, d_two]
  simp
  field_simp

theorem warp_energy {d : Fin 4 → Derivation ℚ K K} (hd : ∀ i j x, d i (d j x) = d j (d i x)) (b : K) :
    ∑ i, ∑ j, Geo.einstein d !![b ^ 2 - 1, -b, 0, 0; -b, 1, 0, 0; 0, 0, 1, 0; 0, 0, 0, 1] i j * ![1, b, 0, 0] i * ![1, b, 0, 0] j =
      -(d 2 b ^ 2 + d 3 b ^ 2) / 4 := by
  have : CharZero K := algebraRat.charZero K
  have r : ∀ i j, Geo.ricci d !![b ^ 2 - 1, -b, 0, 0; -b, 1, 0, 0; 0, 0, 1, 0; 0, 0, 0, 1] i j =
      Geo.ricci d !![b ^ 2 - 1, -b, 0, 0; -b, 1, 0, 0; 0, 0, 1, 0; 0, 0, 0, 1] i j := fun _ _ => rfl
  have r00 := r 0 0
  have r01 := r 0 1
  have r10 := r 1 0
  have r11 := r 1 1
  have r22 := r 2 2
  have r33 := r 3 3
  conv_rhs at r00 => unfold Geo.ricci Geo.riemann; simp only [warp_christoffel rfl rfl rfl rfl]
  conv_rhs at r01 => unfold Geo.ricci Geo.riemann; simp only [warp_christoffel rfl rfl rfl rfl]
  conv_rhs at r10 => unfold Geo.ricci Geo.riemann; simp only [warp_christoffel rfl rfl rfl rfl]
  conv_rhs at r11 => unfold Geo.ricci Geo.riemann; simp only [warp_christoffel rfl rfl rfl rfl]
  conv_rhs at r22 => unfold Geo.ricci Geo.riemann; simp only [warp_christoffel rfl rfl rfl rfl]
  conv_rhs at r33 => unfold Geo.ricci Geo.riemann; simp only [warp_christoffel rfl rfl rfl rfl]
  simp only [Fin.sum_univ_four, Matrix.of_apply, Matrix.cons_val, map_zero, map_neg, map_sub, Derivation.leibniz,
    Derivation.leibniz_pow, d_half, smul_eq_mul, nsmul_eq_mul] at r00 r01 r10 r11 r22 r33
  unfold Geo.einstein Geo.scalar
  rw [Matrix.inv_eq_right_inv (warp_inv b)]
  simp only [Fin.sum_univ_four, Matrix.of_apply, Matrix.cons_val, r00, r01, r10, r11, r22, r33]
  simp [Algebra.smul_def]
  rw [hd 1 0 b]
  field_simp
  ring1

/-! ## Specification -/

/-- The velocity of the observers at rest in the slices of constant time (Eulerian observers) of a metric with unit lapse and shift
`-g₀₁`: `u = ∂_t − g₀₁ ∂_x`. -/
def eulerian (g : Matrix (Fin 4) (Fin 4) K) : Fin 4 → K := ![1, -g 0 1, 0, 0]

/-! ## Theorems -/

theorem warp_returns (x_s sigma R v : K) : ∃ b : K, Returns (alcubierreWarp F x_s sigma R v) cart
    !![b ^ 2 - 1, -b, 0, 0; -b, 1, 0, 0; 0, 0, 1, 0; 0, 0, 0, 1] := by
  unfold alcubierreWarp
  dsimp only
  generalize (F.tanh _ - _) / _ = f
  refine ⟨v * f, ?_⟩
  have := returns_sym01 (v ^ 2 * f ^ 2 - 1) 1 1 1 (-v * f) cart "AlcubierreWarpMetric" rfl
  rw [mul_pow, ← neg_mul]
  exact this

theorem warp_unit (b : K) : IsUnit (!![b ^ 2 - 1, -b, 0, 0; -b, 1, 0, 0; 0, 0, 1, 0; 0, 0, 0, 1] : Matrix (Fin 4) (Fin 4) K).det :=
  Matrix.isUnit_det_of_right_inverse (warp_inv b)

theorem warp_symm (b : K) : (!![b ^ 2 - 1, -b, 0, 0; -b, 1, 0, 0; 0, 0, 1, 0; 0, 0, 0, 1] : Matrix (Fin 4) (Fin 4) K).transpose =
    !![b ^ 2 - 1, -b, 0, 0; -b, 1, 0, 0; 0, 0, 1, 0; 0, 0, 0, 1] := by
  ext i j; fin_cases i <;> fin_cases j <;> rfl

/-- C126: the Eulerian observers of `AlcubierreWarp()` have unit four-velocity and move on geodesics of the Christoffel symbols the library
computes; the slices of constant time are flat. -/
theorem C126_free_fall (x_s sigma R v : K) : ∃ m g ch, alcubierreWarp F x_s sigma R v = .ok m ∧ Returns (alcubierreWarp F x_s sigma R v) cart g ∧
    christoffelFromMetric D m = .ok ch ∧
    (∀ i j : Fin 3, g i.succ j.succ = if i = j then 1 else 0) ∧
    ∑ i, ∑ j, g i j * eulerian g i * eulerian g j = -1 ∧
    ∀ a : Fin 4, ∑ i, eulerian g i * coordD D cart 4 i (eulerian g a) +
      ∑ i : Fin 4, ∑ j : Fin 4, ch.arr.get [(a : Nat), i, j] * eulerian g i * eulerian g j = 0 := by
  have : CharZero K := algebraRat.charZero K
  obtain ⟨b, hb⟩ := warp_returns (F := F) x_s sigma R v
  obtain ⟨m, e, hm, hsy⟩ := space_of hb rfl (warp_unit b) (warp_symm b)
  obtain ⟨c, ec, hc, hc'⟩ := christoffel_ok D m _ hm
  have hc' := (comp_three _ _).mp hc'
  rw [hsy] at hc'
  have hu : eulerian (!![b ^ 2 - 1, -b, 0, 0; -b, 1, 0, 0; 0, 0, 1, 0; 0, 0, 0, 1] : Matrix (Fin 4) (Fin 4) K) = ![1, b, 0, 0] := by
    unfold eulerian
    simp
  refine ⟨m, _, _, e, hb, ec, ?_, ?_, ?_⟩
  · intro i j
    fin_cases i <;> fin_cases j <;> rfl
  · rw [hu]
    simp [Fin.sum_univ_four]
    ring
  · intro a
    rw [hu]
    simp only [hc', warp_christoffel rfl rfl rfl rfl]
    fin_cases a <;> simp [Fin.sum_univ_four] <;> ring

/-- C126: the energy density the Eulerian observers measure: the Einstein tensor contracted twice with their velocity is
`−((∂_y g₀₁)² + (∂_z g₀₁)²)/4`, and the stress-energy tensor is this times c⁴/(8πG), plus the contribution of the cosmological constant. -/
theorem C126_energy_density (x_s sigma R v : K) (C : Consts K) (hcm : Commuting D cart 4) :
    ∃ m g ei T, alcubierreWarp F x_s sigma R v = .ok m ∧ Returns (alcubierreWarp F x_s sigma R v) cart g ∧
    einsteinFromMetric D m = .ok ei ∧ stressEnergyFromMetric D C m = .ok T ∧
    ∑ i : Fin 4, ∑ j : Fin 4, ei.arr.get [(i : Nat), j] * eulerian g i * eulerian g j = -(D "y" (g 0 1) ^ 2 + D "z" (g 0 1) ^ 2) / 4 ∧
    ∑ i : Fin 4, ∑ j : Fin 4, T.arr.get [(i : Nat), j] * eulerian g i * eulerian g j =
      C.c ^ 4 / (8 * C.pi * C.G) * (-(D "y" (g 0 1) ^ 2 + D "z" (g 0 1) ^ 2) / 4 + C.Lam) := by
  have : CharZero K := algebraRat.charZero K
  obtain ⟨b, hb⟩ := warp_returns (F := F) x_s sigma R v
  obtain ⟨m, e, hm, hsy⟩ := space_of hb rfl (warp_unit b) (warp_symm b)
  obtain ⟨c, ec, hc, hc'⟩ := einstein_ok D m _ hm
  obtain ⟨T, eT, hT, hT'⟩ := stress_ok D C m _ hm
  have hc' := (comp_two _ _).mp hc'
  have hT' := (comp_two _ _).mp hT'
  rw [hsy] at hc' hT'
  have hu : eulerian (!![b ^ 2 - 1, -b, 0, 0; -b, 1, 0, 0; 0, 0, 1, 0; 0, 0, 0, 1] : Matrix (Fin 4) (Fin 4) K) = ![1, b, 0, 0] := by
    unfold eulerian
    simp
  have hy : ∀ s, D s ((!![b ^ 2 - 1, -b, 0, 0; -b, 1, 0, 0; 0, 0, 1, 0; 0, 0, 0, 1] : Matrix (Fin 4) (Fin 4) K) 0 1) = - D s b :=
    fun s => map_neg _ _
  have key := warp_energy (d := coordD D cart 4) hcm b
  have k2 : coordD D cart 4 2 b = D "y" b := rfl
  have k3 : coordD D cart 4 3 b = D "z" b := rfl
  rw [k2, k3] at key
  refine ⟨m, _, _, _, e, hb, ec, eT, ?_, ?_⟩
  · rw [hu, hy, hy, neg_sq, neg_sq, ← key]
    simp only [hc']
  · rw [hu, hy, hy, neg_sq, neg_sq, ← key, Ring.inverse_eq_inv', ← div_eq_mul_inv] at *
    simp only [hT']
    generalize C.c ^ 4 / (8 * C.pi * C.G) = k
    have g1 : ∑ i, ∑ j, (!![b ^ 2 - 1, -b, 0, 0; -b, 1, 0, 0; 0, 0, 1, 0; 0, 0, 0, 1] : Matrix (Fin 4) (Fin 4) K) i j * ![1, b, 0, 0] i
        * ![1, b, 0, 0] j = -1 := by
      simp [Fin.sum_univ_four]; ring
    have g2 : C.Lam = - C.Lam * ∑ i, ∑ j, (!![b ^ 2 - 1, -b, 0, 0; -b, 1, 0, 0; 0, 0, 1, 0; 0, 0, 0, 1] : Matrix (Fin 4) (Fin 4) K) i j
        * ![1, b, 0, 0] i * ![1, b, 0, 0] j := by rw [g1]; ring
    conv_rhs => rw [g2]
    simp only [Finset.mul_sum, ← Finset.sum_add_distrib]
    refine Finset.sum_congr rfl fun i _ => Finset.sum_congr rfl fun j _ => ?_
    ring

/-- C126: without velocity the space is flat. -/
theorem C126_no_warp (x_s sigma R : K) : RiemannVanishes D (alcubierreWarp F x_s sigma R 0) := by
  have hb : Returns (alcubierreWarp F x_s sigma R 0) cart
      !![(0 : K) ^ 2 - 1, -0, 0, 0; -0, 1, 0, 0; 0, 0, 1, 0; 0, 0, 0, 1] := by
    unfold alcubierreWarp
    dsimp only
    generalize (F.tanh _ - _) / _ = f
    have := returns_sym01 ((0 : K) ^ 2 * f ^ 2 - 1) 1 1 1 (-0 * f) cart "AlcubierreWarpMetric" rfl
    convert this using 1
    simp
  refine riemannVanishes_of hb rfl (warp_unit 0) (warp_symm 0) fun i j k l => ?_
  have z : ∀ a b c, Geo.christoffel (coordD D cart 4) !![(0 : K) ^ 2 - 1, -0, 0, 0; -0, 1, 0, 0; 0, 0, 1, 0; 0, 0, 0, 1] a b c = 0 := by
    intro a b c
    rw [warp_christoffel (map_zero _) (map_zero _) (map_zero _) (map_zero _)]
    fin_cases a <;> fin_cases b <;> fin_cases c <;> simp
  unfold Geo.riemann
  simp only [z]
  simp

/-- The hypothesis holds in a field of functions, with arbitrary functions for the square root and the hyperbolic tangent. -/
example (C : Consts Rat0) := C126_energy_density (F := exF) (gen "x_s") (gen "sigma") (gen "R") (gen "v") C (exD_commuting (by decide))

end
end Einpy.Predef
