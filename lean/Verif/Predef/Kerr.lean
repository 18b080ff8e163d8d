import Verif.Predef.KerrRicci

/-!
# C95, C96: the predefined Kerr metric is a vacuum solution, the predefined Kerr-Newman metric an electrovacuum one
-/

set_option linter.unusedSectionVars false

namespace Einpy.Predef
open Geo (Along)

section
variable {K : Type} [Field K] [Algebra ℚ K] {D : String → Derivation ℚ K K} {F : Fns K}

/-- The line element with P = r_s r − q. -/
theorem kn_data {c sch a q : K} (hco : IsCoords D F sph) (hth : Trig D F sph "theta") (hc : ∀ j, coordD D sph 4 j c = 0)
    (ha : ∀ j, coordD D sph 4 j a = 0) (hs : ∀ j, coordD D sph 4 j sch = 0) (hq : ∀ j, coordD D sph 4 j q = 0) (c0 : c ≠ 0) :
    KN (coordD D sph 4) (F.var "r") (F.cos (F.var "theta")) (F.sin (F.var "theta")) a c (sch * F.var "r" - q) sch
      (F.var "r" ^ 2 + a ^ 2 * F.cos (F.var "theta") ^ 2) (F.var "r" ^ 2 + a ^ 2 - (sch * F.var "r" - q))
      (F.sin (F.var "theta") ^ 2) := by
  have : CharZero K := algebraRat.charZero K
  obtain ⟨hr, hsi, hk, r0, s0⟩ := sph_laws hco hth
  refine ⟨hr, hsi, hk, ha, hc, ?_, hs, rfl, rfl, rfl, hth.sq, ?_, ?_, s0, c0⟩
  · convert Geo.along_sub (Geo.along_mul (Geo.along_const (i := 1) hs) hr) (Geo.along_const (i := 1) hq) using 1
    ring
  · intro e
    have h1 := congrArg (coordD D sph 4 1) e
    rw [map_add, Derivation.leibniz_pow, Derivation.leibniz, Derivation.leibniz_pow, Derivation.leibniz_pow, ha, hk 1, hr 1,
      map_zero] at h1
    simp at h1
    exact r0 h1
  · have := quad_ne (q := a ^ 2 + q) hr hs fun j => by
      rw [map_add, Derivation.leibniz_pow, ha, hq]; simp
    intro e
    exact this (by linear_combination e)

theorem kerr_returns {c sch a : K} (hco : IsCoords D F sph) (hth : Trig D F sph "theta") (hc : ∀ j, coordD D sph 4 j c = 0)
    (ha : ∀ j, coordD D sph 4 j a = 0) (hs : ∀ j, coordD D sph 4 j sch = 0) (c0 : c ≠ 0) :
    Returns (kerr F c sch a) sph (knMetric (F.var "r") a c (sch * F.var "r" - 0)
      (F.var "r" ^ 2 + a ^ 2 * F.cos (F.var "theta") ^ 2) (F.var "r" ^ 2 + a ^ 2 - (sch * F.var "r" - 0))
      (F.sin (F.var "theta") ^ 2)) := by
  have h := kn_data (F := F) (q := 0) hco hth hc ha hs (fun j => map_zero _) c0
  have S0 := h.S0
  have E0 := h.E0
  have hsq := h.hsq
  unfold kerr
  dsimp only
  convert returns_sym03 _ _ _ _ _ sph "KerrMetric" rfl using 1
  clear h
  unfold knMetric
  have E0' : F.var "r" ^ 2 - sch * F.var "r" + a ^ 2 ≠ 0 := fun e => E0 (by linear_combination e)
  generalize F.var "r" = r at *
  generalize F.sin (F.var "theta") = s at *
  generalize F.cos (F.var "theta") = k at *
  congr 1
  congr 1
  · congr 1
    · ring
    · congr 3
      congr 1
      ring
  congr 1
  · congr 2
    congr 1
    ring
  congr 2
  congr 1
  · ring
  · congr 2
    congr 1
    field_simp
    ring

/-- **C95.** The Ricci tensor the library computes for `Kerr(c, r_s, a)` vanishes identically, for all constants c ≠ 0, r_s
and a. -/
theorem C95_kerr_vacuum (c sch a : K) (hco : IsCoords D F sph) (hth : Trig D F sph "theta") (hc : IsConst D sph c)
    (hsch : IsConst D sph sch) (ha : IsConst D sph a) (c0 : c ≠ 0) : RicciIs D (kerr F c sch a) fun _ _ => 0 := by
  have hcd := const_coordD (cs := sph) rfl hc
  have hsd := const_coordD (cs := sph) rfl hsch
  have had := const_coordD (cs := sph) rfl ha
  have h := kn_data (F := F) (q := 0) hco hth hcd had hsd (fun j => map_zero _) c0
  refine (ricciIs_of (kerr_returns hco hth hcd had hsd c0) rfl h.unit h.symm).congr fun i j => ?_
  rw [h.ricci]
  have e : F.var "r" * sch - (sch * F.var "r" - 0) = 0 := by ring
  rw [e]
  ring

theorem kn_returns {c G eps_0 sch a Q : K} (hco : IsCoords D F sph) (hth : Trig D F sph "theta")
    (hc : ∀ j, coordD D sph 4 j c = 0) (ha : ∀ j, coordD D sph 4 j a = 0) (hs : ∀ j, coordD D sph 4 j sch = 0)
    (hq : ∀ j, coordD D sph 4 j (Q ^ 2 * G / (4 * F.pi * eps_0 * c ^ 4)) = 0) (c0 : c ≠ 0) :
    Returns (kerrNewman F c G eps_0 sch a Q) sph (knMetric (F.var "r") a c
      (sch * F.var "r" - Q ^ 2 * G / (4 * F.pi * eps_0 * c ^ 4))
      (F.var "r" ^ 2 + a ^ 2 * F.cos (F.var "theta") ^ 2)
      (F.var "r" ^ 2 + a ^ 2 - (sch * F.var "r" - Q ^ 2 * G / (4 * F.pi * eps_0 * c ^ 4)))
      (F.sin (F.var "theta") ^ 2)) := by
  have h := kn_data (F := F) hco hth hc ha hs hq c0
  have S0 := h.S0
  have E0 := h.E0
  have hsq := h.hsq
  clear hq
  unfold kerrNewman
  dsimp only
  convert returns_sym03 _ _ _ _ _ sph "KerrNewmanMetric" rfl using 1
  clear h
  unfold knMetric
  generalize Q ^ 2 * G / (4 * F.pi * eps_0 * c ^ 4) = q at *
  have E0' : F.var "r" ^ 2 - sch * F.var "r" + a ^ 2 + q ≠ 0 := fun e => E0 (by linear_combination e)
  generalize F.var "r" = r at *
  generalize F.sin (F.var "theta") = s at *
  generalize F.cos (F.var "theta") = k at *
  have e33 : -(s ^ 2 * (r ^ 2 + a ^ 2 + a ^ 2 * s ^ 2 * (sch * r - q) / (r ^ 2 + a ^ 2 * k ^ 2))) / c ^ 2 =
      ((r ^ 2 - sch * r + a ^ 2 + q) * a ^ 2 * s ^ 2 - (r ^ 2 + a ^ 2) ^ 2) * s ^ 2 / ((r ^ 2 + a ^ 2 * k ^ 2) * c ^ 2) := by
    field_simp
    linear_combination (-(r ^ 2 + a ^ 2) * a ^ 2 * s ^ 2) * hsq
  congr 1
  congr 1
  · congr 1
    · ring
    · congr 3
      congr 1
      ring
  congr 1
  · congr 2
    congr 1
    ring
  congr 2
  congr 1
  · ring
  · congr 3

/-- The Ricci tensor of the field of a rotating charge, with the square `q` of the charge radius: q c²/Σ² times the metric with
the signs of the r-t directions and the angular directions of the principal frame
√(Δ/Σ)(dt − a sin²θ dφ/c), √(Σ/Δ) dr/c, √Σ dθ/c, (sin θ/√Σ)(a dt − (r² + a²) dφ/c). -/
def rotatingChargeRicci (c q a r s Sigma Delta : K) : Matrix (Fin 4) (Fin 4) K :=
  let e0 : Fin 4 → K := ![1, 0, 0, -(a * s ^ 2 / c)]
  let e3 : Fin 4 → K := ![a, 0, 0, -((r ^ 2 + a ^ 2) / c)]
  Matrix.of fun i j => q * c ^ 2 / Sigma ^ 2 * (Delta / Sigma * (e0 i * e0 j) - (if i = 1 ∧ j = 1 then Sigma / (Delta * c ^ 2) else 0)
    + (if i = 2 ∧ j = 2 then Sigma / c ^ 2 else 0) + s ^ 2 / Sigma * (e3 i * e3 j))

/-- **C96.** The Ricci tensor the library computes for `KerrNewman(c, G, eps_0, r_s, a, Q)` is that of the field of the
rotating charge. -/
theorem C96_kerrNewman_ricci (c G eps_0 sch a Q : K) (hco : IsCoords D F sph) (hth : Trig D F sph "theta")
    (hc : IsConst D sph c) (hG : IsConst D sph G) (he : IsConst D sph eps_0) (hp : IsConst D sph F.pi)
    (hsch : IsConst D sph sch) (ha : IsConst D sph a) (hQ : IsConst D sph Q) (c0 : c ≠ 0) :
    RicciIs D (kerrNewman F c G eps_0 sch a Q) (rotatingChargeRicci c (Q ^ 2 * G / (4 * F.pi * eps_0 * c ^ 4)) a (F.var "r")
      (F.sin (F.var "theta")) (F.var "r" ^ 2 + a ^ 2 * F.cos (F.var "theta") ^ 2)
      (F.var "r" ^ 2 - sch * F.var "r" + a ^ 2 + Q ^ 2 * G / (4 * F.pi * eps_0 * c ^ 4))) := by
  have hcd := const_coordD (cs := sph) rfl hc
  have hsd := const_coordD (cs := sph) rfl hsch
  have had := const_coordD (cs := sph) rfl ha
  have hqd : ∀ j, coordD D sph 4 j (Q ^ 2 * G / (4 * F.pi * eps_0 * c ^ 4)) = 0 := rn_const hc hG he hp hQ
  have h := kn_data (F := F) hco hth hcd had hsd hqd c0
  refine (ricciIs_of (kn_returns hco hth hcd had hsd hqd c0) rfl h.unit h.symm).congr fun i j => ?_
  rw [h.ricci]
  have S0 := h.S0
  have E0 := h.E0
  clear h hqd
  unfold rotatingChargeRicci
  generalize Q ^ 2 * G / (4 * F.pi * eps_0 * c ^ 4) = q at *
  have eE : F.var "r" ^ 2 - sch * F.var "r" + a ^ 2 + q = F.var "r" ^ 2 + a ^ 2 - (sch * F.var "r" - q) := by ring
  rw [eE]
  have e : F.var "r" * sch - (sch * F.var "r" - q) = q := by ring
  rw [e]
  generalize F.var "r" ^ 2 + a ^ 2 - (sch * F.var "r" - q) = E at *
  generalize F.var "r" ^ 2 + a ^ 2 * F.cos (F.var "theta") ^ 2 = S at *
  generalize F.var "r" = r at *
  generalize F.sin (F.var "theta") = s at *
  revert i j
  refine fin4_cases ?_ ?_ ?_ ?_ <;> refine fin4_cases ?_ ?_ ?_ ?_ <;> simp [-mul_eq_mul_left_iff, -mul_eq_mul_right_iff] <;> field_simp <;> first | done | ring1

/-- **C96.** Its Ricci scalar vanishes identically. -/
theorem C96_kerrNewman_scalar (c G eps_0 sch a Q : K) (hco : IsCoords D F sph) (hth : Trig D F sph "theta")
    (hc : IsConst D sph c) (hG : IsConst D sph G) (he : IsConst D sph eps_0) (hp : IsConst D sph F.pi)
    (hsch : IsConst D sph sch) (ha : IsConst D sph a) (hQ : IsConst D sph Q) (c0 : c ≠ 0) :
    ScalarIs D (kerrNewman F c G eps_0 sch a Q) 0 := by
  have hcd := const_coordD (cs := sph) rfl hc
  have hsd := const_coordD (cs := sph) rfl hsch
  have had := const_coordD (cs := sph) rfl ha
  have hqd : ∀ j, coordD D sph 4 j (Q ^ 2 * G / (4 * F.pi * eps_0 * c ^ 4)) = 0 := rn_const hc hG he hp hQ
  have h := kn_data (F := F) hco hth hcd had hsd hqd c0
  rw [← h.scalar]
  exact scalarIs_of (kn_returns hco hth hcd had hsd hqd c0) rfl h.unit h.symm

/-- **C96.** It is a vacuum solution exactly when the charge radius is zero. -/
theorem C96_vacuum_iff (c G eps_0 sch a Q : K) (hco : IsCoords D F sph) (hth : Trig D F sph "theta")
    (hc : IsConst D sph c) (hG : IsConst D sph G) (he : IsConst D sph eps_0) (hp : IsConst D sph F.pi)
    (hsch : IsConst D sph sch) (ha : IsConst D sph a) (hQ : IsConst D sph Q) (c0 : c ≠ 0) :
    RicciIs D (kerrNewman F c G eps_0 sch a Q) (fun _ _ => 0) ↔ Q ^ 2 * G / (4 * F.pi * eps_0 * c ^ 4) = 0 := by
  have h := C96_kerrNewman_ricci (F := F) c G eps_0 sch a Q hco hth hc hG he hp hsch ha hQ c0
  have hcd := const_coordD (cs := sph) rfl hc
  have hsd := const_coordD (cs := sph) rfl hsch
  have had := const_coordD (cs := sph) rfl ha
  have hqd : ∀ j, coordD D sph 4 j (Q ^ 2 * G / (4 * F.pi * eps_0 * c ^ 4)) = 0 := rn_const hc hG he hp hQ
  have S0 := (kn_data (F := F) hco hth hcd had hsd hqd c0).S0
  constructor
  · intro h0
    have e := h.inj h0 2 2
    simp [rotatingChargeRicci, c0, S0] at e
    simp only [div_eq_zero_iff, mul_eq_zero, pow_eq_zero_iff, ne_eq, OfNat.ofNat_ne_zero, not_false_eq_true]
    tauto
  · intro e
    refine h.congr fun i j => ?_
    simp only [rotatingChargeRicci, e, Matrix.of_apply]
    ring

end
end Einpy.Predef
