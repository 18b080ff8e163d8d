import Verif.Predef.Davidson

/-!
# The geometry of the Kerr-Newman line element

Christoffel symbols and Ricci tensor of

  g_tt = 1 − P/S,  g_tφ = a w P/(S c),  g_φφ = −w (X + a² w P/S)/c²,  g_rr = −S/(E c²),  g_θθ = −S/c²

with X = r² + a², S = r² + a² cos²θ, E = X − P, w = sin²θ and P a linear function of r (P = r_s r for Kerr,
P = r_s r − r_Q² for Kerr-Newman).
-/

set_option linter.unusedSectionVars false

namespace Einpy.Geo
section
variable {K : Type*} [Field K] [Algebra ℚ K] (d : Fin 4 → Derivation ℚ K K)

/-- The Ricci tensor from a table of Christoffel symbols, with the derivatives of the traces collected. -/
theorem ricci_of_table {g : Matrix (Fin 4) (Fin 4) K} {T : Fin 4 → Fin 4 → Fin 4 → K}
    (hT : ∀ i j k, christoffel d g i j k = T i j k) {L : Fin 4 → K} (hL : ∀ a, ∑ i, T i a i = L a) (a b : Fin 4) :
    ricci d g a b = (∑ i, d i (T i a b)) - d b (L a) + (∑ p, T p a b * ∑ i, T i p i) -
      ∑ p, ∑ i, T p a i * T i p b := by
  unfold ricci riemann
  simp only [hT]
  rw [Finset.sum_add_distrib, Finset.sum_sub_distrib, ← map_sum, hL]
  simp only [Finset.sum_sub_distrib, Finset.mul_sum]
  rw [Finset.sum_comm (f := fun i p => T p a b * T i p i), Finset.sum_comm (f := fun i p => T p a i * T i p b)]
  ring

end
end Einpy.Geo

namespace Einpy.Predef
open Geo (Along)

section
variable {K : Type} [Field K] [Algebra ℚ K] {d : Fin 4 → Derivation ℚ K K}

/-- `x` does not depend on t and φ; its derivatives along r and θ are `xr` and `s xt`. -/
structure D2 (d : Fin 4 → Derivation ℚ K K) (s x xr xt : K) : Prop where
  h0 : d 0 x = 0
  h1 : d 1 x = xr
  h2 : d 2 x = s * xt
  h3 : d 3 x = 0

variable {s x y xr yr xt yt : K}

theorem D2.const (h : ∀ j, d j x = 0) : D2 d s x 0 0 := ⟨h 0, h 1, by rw [h 2, mul_zero], h 3⟩

theorem D2.nat (n : ℕ) : D2 d s (n : K) 0 0 := D2.const fun _ => Derivation.map_natCast _ _

theorem D2.two : D2 d s (2 : K) 0 0 := by
  have := D2.nat (d := d) (s := s) 2
  rwa [Nat.cast_ofNat] at this

theorem D2.one : D2 d s (1 : K) 0 0 := D2.const fun j => (d j).map_one_eq_zero

theorem D2.add (hx : D2 d s x xr xt) (hy : D2 d s y yr yt) : D2 d s (x + y) (xr + yr) (xt + yt) :=
  ⟨by rw [map_add, hx.h0, hy.h0, add_zero], by rw [map_add, hx.h1, hy.h1], by rw [map_add, hx.h2, hy.h2, mul_add],
    by rw [map_add, hx.h3, hy.h3, add_zero]⟩

theorem D2.neg (hx : D2 d s x xr xt) : D2 d s (-x) (-xr) (-xt) :=
  ⟨by rw [map_neg, hx.h0, neg_zero], by rw [map_neg, hx.h1], by rw [map_neg, hx.h2, mul_neg],
    by rw [map_neg, hx.h3, neg_zero]⟩

theorem D2.sub (hx : D2 d s x xr xt) (hy : D2 d s y yr yt) : D2 d s (x - y) (xr - yr) (xt - yt) := by
  rw [sub_eq_add_neg, sub_eq_add_neg, sub_eq_add_neg]; exact hx.add hy.neg

theorem D2.mul (hx : D2 d s x xr xt) (hy : D2 d s y yr yt) : D2 d s (x * y) (xr * y + x * yr) (xt * y + x * yt) :=
  ⟨by rw [Derivation.leibniz, hx.h0, hy.h0]; simp, by rw [Derivation.leibniz, hx.h1, hy.h1]; simp only [smul_eq_mul]; ring,
    by rw [Derivation.leibniz, hx.h2, hy.h2]; simp only [smul_eq_mul]; ring, by rw [Derivation.leibniz, hx.h3, hy.h3]; simp⟩

theorem D2.div (hx : D2 d s x xr xt) (hy : D2 d s y yr yt) (y0 : y ≠ 0) :
    D2 d s (x / y) ((xr * y - x * yr) / y ^ 2) ((xt * y - x * yt) / y ^ 2) :=
  ⟨by rw [Derivation.leibniz_div, hx.h0, hy.h0]; simp,
    by rw [Derivation.leibniz_div, hx.h1, hy.h1]; simp only [smul_eq_mul]; field_simp,
    by rw [Derivation.leibniz_div, hx.h2, hy.h2]; simp only [smul_eq_mul]; field_simp,
    by rw [Derivation.leibniz_div, hx.h3, hy.h3]; simp⟩

theorem D2.sq (hx : D2 d s x xr xt) : D2 d s (x ^ 2) (2 * x * xr) (2 * x * xt) := by
  have := hx.mul hx
  rw [pow_two]
  convert this using 1 <;> ring

theorem D2.congr (hx : D2 d s x xr xt) (h1 : xr = yr) (h2 : xt = yt) : D2 d s x yr yt := h1 ▸ h2 ▸ hx

/-- The situation: the coordinates r and θ, the constants and the abbreviations. -/
structure KN (d : Fin 4 → Derivation ℚ K K) (r k s a c P P1 S E w : K) : Prop where
  hr : Along d 1 r 1
  hs : Along d 2 s k
  hk : Along d 2 k (-s)
  ha : ∀ j, d j a = 0
  hc : ∀ j, d j c = 0
  hP : Along d 1 P P1
  hP1 : ∀ j, d j P1 = 0
  hS : S = r ^ 2 + a ^ 2 * k ^ 2
  hE : E = r ^ 2 + a ^ 2 - P
  hw : w = s ^ 2
  hsq : s ^ 2 + k ^ 2 = 1
  S0 : S ≠ 0
  E0 : E ≠ 0
  s0 : s ≠ 0
  c0 : c ≠ 0

variable {r k a c P P1 S E w : K}

/-- The metric. -/
def knMetric (r a c P S E w : K) : Matrix (Fin 4) (Fin 4) K :=
  !![1 - P / S, 0, 0, a * w * P / (S * c);
     0, -S / (E * c ^ 2), 0, 0;
     0, 0, -S / c ^ 2, 0;
     a * w * P / (S * c), 0, 0, -(w * ((r ^ 2 + a ^ 2) + a ^ 2 * w * P / S)) / c ^ 2]

/-- Its inverse. -/
def knInverse (r a c P S E w : K) : Matrix (Fin 4) (Fin 4) K :=
  !![((r ^ 2 + a ^ 2) * S + P * a ^ 2 * w) / (S * E), 0, 0, a * P * c / (S * E);
     0, -(E * c ^ 2) / S, 0, 0;
     0, 0, -c ^ 2 / S, 0;
     a * P * c / (S * E), 0, 0, -(c ^ 2 * (S - P)) / (S * E * w)]

namespace KN
variable (h : KN d r k s a c P P1 S E w)
include h

theorem w0 : w ≠ 0 := by rw [h.hw]; exact pow_ne_zero 2 h.s0

theorem w_eq : w = 1 - k ^ 2 := by rw [h.hw]; linear_combination h.hsq

theorem ss (x y : K) : s * x * (s * y) = w * (x * y) := by rw [h.hw]; ring

theorem inv_eq : knMetric r a c P S E w * knInverse r a c P S E w = 1 := by
  have : CharZero K := algebraRat.charZero K
  have S0 := h.S0
  have E0 := h.E0
  have c0 := h.c0
  have w0 := h.w0
  have hw := h.w_eq
  have hS := h.hS
  have hE := h.hE
  clear h
  unfold knMetric knInverse
  ext i j
  rw [Matrix.mul_apply, Fin.sum_univ_four]
  fin_cases i <;> fin_cases j <;> simp <;> field_simp <;> subst hw <;> subst hS <;> subst hE <;> ring1

theorem dr : D2 d s r 1 0 := ⟨h.hr 0, h.hr 1, by rw [h.hr 2]; simp, h.hr 3⟩
theorem dk : D2 d s k 0 (-1) := ⟨h.hk 0, h.hk 1, by rw [h.hk 2]; simp, h.hk 3⟩
theorem da : D2 d s a 0 0 := .const h.ha
theorem dc : D2 d s c 0 0 := .const h.hc
theorem dP : D2 d s P P1 0 := ⟨h.hP 0, h.hP 1, by rw [h.hP 2]; simp, h.hP 3⟩
theorem dP1 : D2 d s P1 0 0 := .const h.hP1
theorem dS : D2 d s S (2 * r) (-2 * a ^ 2 * k) := by
  rw [h.hS]
  exact (h.dr.sq.add (h.da.sq.mul h.dk.sq)).congr (by ring) (by ring)
theorem dE : D2 d s E (2 * r - P1) 0 := by
  rw [h.hE]
  exact ((h.dr.sq.add h.da.sq).sub h.dP).congr (by ring) (by ring)
theorem dw : D2 d s w 0 (2 * k) := by
  rw [h.w_eq]
  exact (D2.one.sub h.dk.sq).congr (by ring) (by ring)

/-- The derivative along θ of an odd expression. -/
theorem odd {x xr xt : K} (hx : D2 d s x xr xt) : d 2 (s * x) = k * x + w * xt ∧ d 1 (s * x) = s * xr ∧
    d 0 (s * x) = 0 ∧ d 3 (s * x) = 0 := by
  refine ⟨?_, ?_, ?_, ?_⟩
  · rw [Derivation.leibniz, hx.h2, h.hs 2, h.hw]; simp; ring
  · rw [Derivation.leibniz, hx.h1, h.hs 1]; simp
  · rw [Derivation.leibniz, hx.h0, h.hs 0]; simp
  · rw [Derivation.leibniz, hx.h3, h.hs 3]; simp


/-- The table of derivatives of the metric. -/
theorem dg (l i j : Fin 4) : d l (knMetric r a c P S E w i j) =
    if l = 1 then (!![-((P1 * S - P * (2 * r)) / S ^ 2), 0, 0, a * w * ((P1 * S - P * (2 * r)) / S ^ 2) / c;
        0, -(2 * r * E - S * (2 * r - P1)) / (E ^ 2 * c ^ 2), 0, 0;
        0, 0, -(2 * r) / c ^ 2, 0;
        a * w * ((P1 * S - P * (2 * r)) / S ^ 2) / c, 0, 0, -(w * (2 * r + a ^ 2 * w * ((P1 * S - P * (2 * r)) / S ^ 2))) / c ^ 2] :
        Matrix (Fin 4) (Fin 4) K) i j
    else if l = 2 then s * (!![-(2 * a ^ 2 * k * P / S ^ 2), 0, 0, a * (w * (2 * a ^ 2 * k * P / S ^ 2) + 2 * k * (P / S)) / c;
        0, 2 * a ^ 2 * k / (E * c ^ 2), 0, 0;
        0, 0, 2 * a ^ 2 * k / c ^ 2, 0;
        a * (w * (2 * a ^ 2 * k * P / S ^ 2) + 2 * k * (P / S)) / c, 0, 0,
          -(2 * k * (r ^ 2 + a ^ 2) + 4 * k * a ^ 2 * w * (P / S) + a ^ 2 * w ^ 2 * (2 * a ^ 2 * k * P / S ^ 2)) / c ^ 2] :
        Matrix (Fin 4) (Fin 4) K) i j
    else 0 := by
  have : CharZero K := algebraRat.charZero K
  have S0 := h.S0
  have E0 := h.E0
  have c0 := h.c0
  have key : ∀ {x xr xt : K}, D2 d s x xr xt → d l x = if l = 1 then xr else if l = 2 then s * xt else 0 := by
    intro x xr xt hx
    fin_cases l
    · exact hx.h0
    · exact hx.h1
    · exact hx.h2
    · exact hx.h3
  have hp := h.dP.div h.dS S0
  have e00 := D2.one.sub hp
  have e03 := ((h.da.mul h.dw).mul h.dP).div (h.dS.mul h.dc) (mul_ne_zero S0 c0)
  have e11 := h.dS.neg.div (h.dE.mul h.dc.sq) (mul_ne_zero E0 (pow_ne_zero 2 c0))
  have e22 := h.dS.neg.div h.dc.sq (pow_ne_zero 2 c0)
  have e33 := (h.dw.mul ((h.dr.sq.add h.da.sq).add (((h.da.sq.mul h.dw).mul h.dP).div h.dS S0))).neg.div h.dc.sq (pow_ne_zero 2 c0)
  have z : D2 d s (0:K) 0 0 := .const fun _ => map_zero _
  have f03 : D2 d s (a * w * P / (S * c)) (a * w * ((P1 * S - P * (2 * r)) / S ^ 2) / c)
      (a * (w * (2 * a ^ 2 * k * P / S ^ 2) + 2 * k * (P / S)) / c) :=
    e03.congr (by field_simp; ring) (by field_simp; ring)
  have f00 : D2 d s (1 - P / S) (-((P1 * S - P * (2 * r)) / S ^ 2)) (-(2 * a ^ 2 * k * P / S ^ 2)) :=
    e00.congr (by ring) (by field_simp; ring)
  have f11 : D2 d s (-S / (E * c ^ 2)) (-(2 * r * E - S * (2 * r - P1)) / (E ^ 2 * c ^ 2)) (2 * a ^ 2 * k / (E * c ^ 2)) :=
    e11.congr (by field_simp; ring) (by field_simp; ring)
  have f22 : D2 d s (-S / c ^ 2) (-(2 * r) / c ^ 2) (2 * a ^ 2 * k / c ^ 2) :=
    e22.congr (by field_simp; ring) (by field_simp; ring)
  have f33 : D2 d s (-(w * ((r ^ 2 + a ^ 2) + a ^ 2 * w * P / S)) / c ^ 2)
      (-(w * (2 * r + a ^ 2 * w * ((P1 * S - P * (2 * r)) / S ^ 2))) / c ^ 2)
      (-(2 * k * (r ^ 2 + a ^ 2) + 4 * k * a ^ 2 * w * (P / S) + a ^ 2 * w ^ 2 * (2 * a ^ 2 * k * P / S ^ 2)) / c ^ 2) :=
    e33.congr (by field_simp; ring) (by field_simp; ring)
  revert i j
  refine fin4_cases ?_ ?_ ?_ ?_ <;> refine fin4_cases ?_ ?_ ?_ ?_
  · exact key f00
  · exact key z
  · exact key z
  · exact key f03
  · exact key z
  · exact key f11
  · exact key z
  · exact key z
  · exact key z
  · exact key z
  · exact key f22
  · exact key z
  · exact key f03
  · exact key z
  · exact key z
  · exact key f33

end KN

/-- The Christoffel symbols. -/
def knGamma (r k s a c P P1 S E w : K) : Fin 4 → Fin 4 → Fin 4 → K :=
  ![!![0, -((r ^ 2 + a ^ 2) * (P1 * S - 2 * r * P)) / (2 * E * S ^ 2), s * (-(a ^ 2 * k * P) / S ^ 2), 0;
       -((r ^ 2 + a ^ 2) * (P1 * S - 2 * r * P)) / (2 * E * S ^ 2), 0, 0,
         a * w * ((r ^ 2 + a ^ 2) * (P1 * S - 2 * r * P) - 2 * r * P * S) / (2 * c * E * S ^ 2);
       s * (-(a ^ 2 * k * P) / S ^ 2), 0, 0, s * (a ^ 3 * w * k * P / (c * S ^ 2));
       0, a * w * ((r ^ 2 + a ^ 2) * (P1 * S - 2 * r * P) - 2 * r * P * S) / (2 * c * E * S ^ 2),
         s * (a ^ 3 * w * k * P / (c * S ^ 2)), 0],
    !![-(c ^ 2 * E * (P1 * S - 2 * r * P)) / (2 * S ^ 3), 0, 0, c * E * a * w * (P1 * S - 2 * r * P) / (2 * S ^ 3);
       0, r / S - (2 * r - P1) / (2 * E), s * (-(a ^ 2 * k) / S), 0;
       0, s * (-(a ^ 2 * k) / S), -(r * E) / S, 0;
       c * E * a * w * (P1 * S - 2 * r * P) / (2 * S ^ 3), 0, 0,
         -(E * w * (2 * r * S ^ 2 + a ^ 2 * w * (P1 * S - 2 * r * P))) / (2 * S ^ 3)],
    !![s * (-(c ^ 2 * a ^ 2 * k * P) / S ^ 3), 0, 0, s * (a * c * k * P * (r ^ 2 + a ^ 2) / S ^ 3);
       0, s * (a ^ 2 * k / (S * E)), r / S, 0;
       0, r / S, s * (-(a ^ 2 * k) / S), 0;
       s * (a * c * k * P * (r ^ 2 + a ^ 2) / S ^ 3), 0, 0,
         s * (-(k * ((r ^ 2 + a ^ 2) * S ^ 2 + 2 * a ^ 2 * w * P * S + a ^ 4 * w ^ 2 * P)) / S ^ 3)],
    !![0, -(a * c * (P1 * S - 2 * r * P)) / (2 * E * S ^ 2), s * (-(a * c * k * P) / (S ^ 2 * w)), 0;
       -(a * c * (P1 * S - 2 * r * P)) / (2 * E * S ^ 2), 0, 0,
         (2 * r * S * (S - P) + a ^ 2 * w * (P1 * S - 2 * r * P)) / (2 * E * S ^ 2);
       s * (-(a * c * k * P) / (S ^ 2 * w)), 0, 0, s * (k / w + a ^ 2 * k * P / S ^ 2);
       0, (2 * r * S * (S - P) + a ^ 2 * w * (P1 * S - 2 * r * P)) / (2 * E * S ^ 2), s * (k / w + a ^ 2 * k * P / S ^ 2), 0]]

namespace KN
variable (h : KN d r k s a c P P1 S E w)
include h

set_option maxHeartbeats 4000000 in
theorem gamma (i j l : Fin 4) : Geo.christoffel d (knMetric r a c P S E w) i j l = knGamma r k s a c P P1 S E w i j l := by
  have : CharZero K := algebraRat.charZero K
  rw [Geo.christoffel_of d h.inv_eq (dg := fun l => Matrix.of fun i j => if l = 1 then (!![-((P1 * S - P * (2 * r)) / S ^ 2), 0, 0, a * w * ((P1 * S - P * (2 * r)) / S ^ 2) / c;
        0, -(2 * r * E - S * (2 * r - P1)) / (E ^ 2 * c ^ 2), 0, 0;
        0, 0, -(2 * r) / c ^ 2, 0;
        a * w * ((P1 * S - P * (2 * r)) / S ^ 2) / c, 0, 0, -(w * (2 * r + a ^ 2 * w * ((P1 * S - P * (2 * r)) / S ^ 2))) / c ^ 2] :
        Matrix (Fin 4) (Fin 4) K) i j
    else if l = 2 then s * (!![-(2 * a ^ 2 * k * P / S ^ 2), 0, 0, a * (w * (2 * a ^ 2 * k * P / S ^ 2) + 2 * k * (P / S)) / c;
        0, 2 * a ^ 2 * k / (E * c ^ 2), 0, 0;
        0, 0, 2 * a ^ 2 * k / c ^ 2, 0;
        a * (w * (2 * a ^ 2 * k * P / S ^ 2) + 2 * k * (P / S)) / c, 0, 0,
          -(2 * k * (r ^ 2 + a ^ 2) + 4 * k * a ^ 2 * w * (P / S) + a ^ 2 * w ^ 2 * (2 * a ^ 2 * k * P / S ^ 2)) / c ^ 2] :
        Matrix (Fin 4) (Fin 4) K) i j
    else 0) h.dg, Fin.sum_univ_four]
  have S0 := h.S0
  have E0 := h.E0
  have c0 := h.c0
  have w0 := h.w0
  have s0 := h.s0
  have hw := h.w_eq
  have hS := h.hS
  have hE := h.hE
  clear h
  unfold knInverse knGamma
  fin_cases i <;> fin_cases j <;> fin_cases l <;> simp <;> field_simp <;> subst hw <;> subst hS <;> subst hE <;> ring1

end KN

/-- The traces of the Christoffel symbols. -/
def knTrace (r k s a S w : K) : Fin 4 → K := ![0, 2 * r / S, s * (k / w - 2 * a ^ 2 * k / S), 0]

namespace KN
variable (h : KN d r k s a c P P1 S E w)
include h

theorem trace (j : Fin 4) : ∑ i, knGamma r k s a c P P1 S E w i j i = knTrace r k s a S w j := by
  have : CharZero K := algebraRat.charZero K
  have S0 := h.S0
  have E0 := h.E0
  have c0 := h.c0
  have w0 := h.w0
  have s0 := h.s0
  have hw := h.w_eq
  have hS := h.hS
  have hE := h.hE
  clear h
  unfold knTrace knGamma
  rw [Fin.sum_univ_four]
  fin_cases j <;> simp <;> field_simp <;> subst hw <;> subst hS <;> subst hE <;> ring1

theorem dN : D2 d s (P1 * S - 2 * r * P) (-2 * P) (-2 * a ^ 2 * k * P1) :=
  ((h.dP1.mul h.dS).sub ((D2.two.mul h.dr).mul h.dP)).congr (by ring) (by ring)

theorem dS3 : D2 d s (S ^ 3) (6 * r * S ^ 2) (-6 * a ^ 2 * k * S ^ 2) := by
  have := h.dS.sq.mul h.dS
  rw [show S ^ 3 = S ^ 2 * S by ring]
  exact this.congr (by ring) (by ring)

theorem d_r00 : d 1 (-(c ^ 2 * E * (P1 * S - 2 * r * P)) / (2 * S ^ 3)) =
    -(c ^ 2 * ((2 * r - P1) * (P1 * S - 2 * r * P) * S - 2 * P * E * S - 6 * r * E * (P1 * S - 2 * r * P))) / (2 * S ^ 4) := by
  have : CharZero K := algebraRat.charZero K
  have S0 := h.S0
  rw [(((h.dc.sq.mul h.dE).mul h.dN).neg.div (D2.two.mul h.dS3) (by simpa using S0)).h1]
  field_simp; ring

theorem d_r03 : d 1 (c * E * a * w * (P1 * S - 2 * r * P) / (2 * S ^ 3)) =
    c * a * w * ((2 * r - P1) * (P1 * S - 2 * r * P) * S - 2 * P * E * S - 6 * r * E * (P1 * S - 2 * r * P)) / (2 * S ^ 4) := by
  have : CharZero K := algebraRat.charZero K
  have S0 := h.S0
  rw [(((((h.dc.mul h.dE).mul h.da).mul h.dw).mul h.dN).div (D2.two.mul h.dS3) (by simpa using S0)).h1]
  field_simp; ring

theorem d_r33 : d 1 (-(E * w * (2 * r * S ^ 2 + a ^ 2 * w * (P1 * S - 2 * r * P))) / (2 * S ^ 3)) =
    -(w * ((2 * r - P1) * (2 * r * S ^ 2 + a ^ 2 * w * (P1 * S - 2 * r * P)) * S +
      E * (2 * S ^ 2 + 8 * r ^ 2 * S - 2 * a ^ 2 * w * P) * S - 6 * r * E * (2 * r * S ^ 2 + a ^ 2 * w * (P1 * S - 2 * r * P)))) /
      (2 * S ^ 4) := by
  have : CharZero K := algebraRat.charZero K
  have S0 := h.S0
  rw [(((h.dE.mul h.dw).mul (((D2.two.mul h.dr).mul h.dS.sq).add ((h.da.sq.mul h.dw).mul h.dN))).neg.div (D2.two.mul h.dS3)
    (by simpa using S0)).h1]
  field_simp; ring

theorem d_r11 : d 1 (r / S - (2 * r - P1) / (2 * E)) =
    (S - 2 * r ^ 2) / S ^ 2 - (2 * E - (2 * r - P1) ^ 2) / (2 * E ^ 2) := by
  have : CharZero K := algebraRat.charZero K
  have S0 := h.S0
  have E0 := h.E0
  rw [((h.dr.div h.dS S0).sub (((D2.two.mul h.dr).sub h.dP1).div (D2.two.mul h.dE) (by simpa using E0))).h1]
  field_simp; ring

theorem d_r12 : d 1 (s * (-(a ^ 2 * k) / S)) = s * (2 * r * a ^ 2 * k / S ^ 2) := by
  have S0 := h.S0
  rw [(h.odd ((h.da.sq.mul h.dk).neg.div h.dS S0)).2.1]
  field_simp; ring

theorem d_r22 : d 1 (-(r * E) / S) = -((E + r * (2 * r - P1)) * S - 2 * r ^ 2 * E) / S ^ 2 := by
  have S0 := h.S0
  rw [((h.dr.mul h.dE).neg.div h.dS S0).h1]
  field_simp; ring

theorem d_t00 : d 2 (s * (-(c ^ 2 * a ^ 2 * k * P) / S ^ 3)) =
    k * (-(c ^ 2 * a ^ 2 * k * P) / S ^ 3) + w * (-(c ^ 2 * a ^ 2 * P * (-S + 6 * a ^ 2 * k ^ 2)) / S ^ 4) := by
  have S0 := h.S0
  rw [(h.odd ((((h.dc.sq.mul h.da.sq).mul h.dk).mul h.dP).neg.div h.dS3 (pow_ne_zero 3 S0))).1]
  congr 2
  field_simp; ring

theorem d_t03 : d 2 (s * (a * c * k * P * (r ^ 2 + a ^ 2) / S ^ 3)) =
    k * (a * c * k * P * (r ^ 2 + a ^ 2) / S ^ 3) + w * (a * c * P * (r ^ 2 + a ^ 2) * (-S + 6 * a ^ 2 * k ^ 2) / S ^ 4) := by
  have S0 := h.S0
  rw [(h.odd (((((h.da.mul h.dc).mul h.dk).mul h.dP).mul (h.dr.sq.add h.da.sq)).div h.dS3 (pow_ne_zero 3 S0))).1]
  congr 2
  field_simp; ring

theorem dM : D2 d s ((r ^ 2 + a ^ 2) * S ^ 2 + 2 * a ^ 2 * w * P * S + a ^ 4 * w ^ 2 * P)
    (2 * r * S ^ 2 + 4 * r * (r ^ 2 + a ^ 2) * S + 2 * a ^ 2 * w * (P1 * S + 2 * r * P) + a ^ 4 * w ^ 2 * P1)
    (-4 * a ^ 2 * k * S * ((r ^ 2 + a ^ 2) - P)) := by
  have := (((h.dr.sq.add h.da.sq).mul h.dS.sq).add ((((D2.two.mul h.da.sq).mul h.dw).mul h.dP).mul h.dS)).add
    ((h.da.sq.sq.mul h.dw.sq).mul h.dP)
  rw [show a ^ 4 = (a ^ 2) ^ 2 by ring]
  exact this.congr (by ring) (by ring)

theorem d_t33 : d 2 (s * (-(k * ((r ^ 2 + a ^ 2) * S ^ 2 + 2 * a ^ 2 * w * P * S + a ^ 4 * w ^ 2 * P)) / S ^ 3)) =
    k * (-(k * ((r ^ 2 + a ^ 2) * S ^ 2 + 2 * a ^ 2 * w * P * S + a ^ 4 * w ^ 2 * P)) / S ^ 3) +
    w * (-((-((r ^ 2 + a ^ 2) * S ^ 2 + 2 * a ^ 2 * w * P * S + a ^ 4 * w ^ 2 * P) +
      k * (-4 * a ^ 2 * k * S * ((r ^ 2 + a ^ 2) - P))) * S +
      6 * a ^ 2 * k ^ 2 * ((r ^ 2 + a ^ 2) * S ^ 2 + 2 * a ^ 2 * w * P * S + a ^ 4 * w ^ 2 * P)) / S ^ 4) := by
  have S0 := h.S0
  rw [(h.odd ((h.dk.mul h.dM).neg.div h.dS3 (pow_ne_zero 3 S0))).1]
  congr 2
  field_simp; ring

theorem d_t11 : d 2 (s * (a ^ 2 * k / (S * E))) = k * (a ^ 2 * k / (S * E)) + w * (a ^ 2 * (-S + 2 * a ^ 2 * k ^ 2) / (S ^ 2 * E)) := by
  have S0 := h.S0
  have E0 := h.E0
  rw [(h.odd ((h.da.sq.mul h.dk).div (h.dS.mul h.dE) (mul_ne_zero S0 E0))).1]
  congr 2
  field_simp; ring

theorem d_t12 : d 2 (r / S) = s * (2 * a ^ 2 * k * r / S ^ 2) := by
  have S0 := h.S0
  rw [(h.dr.div h.dS S0).h2]
  field_simp; ring

theorem d_t22 : d 2 (s * (-(a ^ 2 * k) / S)) = k * (-(a ^ 2 * k) / S) + w * (-(a ^ 2 * (-S + 2 * a ^ 2 * k ^ 2)) / S ^ 2) := by
  have S0 := h.S0
  rw [(h.odd ((h.da.sq.mul h.dk).neg.div h.dS S0)).1]
  congr 2
  field_simp; ring

theorem d_L11 : d 1 (2 * r / S) = 2 * (S - 2 * r ^ 2) / S ^ 2 := by
  have S0 := h.S0
  rw [((D2.two.mul h.dr).div h.dS S0).h1]
  field_simp; ring

theorem d_L12 : d 2 (2 * r / S) = s * (4 * a ^ 2 * k * r / S ^ 2) := by
  have S0 := h.S0
  rw [((D2.two.mul h.dr).div h.dS S0).h2]
  field_simp; ring

theorem dL2 : D2 d s (k / w - 2 * a ^ 2 * k / S) (4 * a ^ 2 * k * r / S ^ 2)
    (-(w + 2 * k ^ 2) / w ^ 2 - 2 * a ^ 2 * (-S + 2 * a ^ 2 * k ^ 2) / S ^ 2) := by
  have S0 := h.S0
  have w0 := h.w0
  exact ((h.dk.div h.dw w0).sub (((D2.two.mul h.da.sq).mul h.dk).div h.dS S0)).congr (by field_simp; ring) (by field_simp; ring)

theorem d_L21 : d 1 (s * (k / w - 2 * a ^ 2 * k / S)) = s * (4 * a ^ 2 * k * r / S ^ 2) := (h.odd h.dL2).2.1

theorem d_L22 : d 2 (s * (k / w - 2 * a ^ 2 * k / S)) = k * (k / w - 2 * a ^ 2 * k / S) +
    w * (-(w + 2 * k ^ 2) / w ^ 2 - 2 * a ^ 2 * (-S + 2 * a ^ 2 * k ^ 2) / S ^ 2) := (h.odd h.dL2).1

end KN

end
end Einpy.Predef
