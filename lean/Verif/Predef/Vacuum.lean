import Verif.Predef.Spherical
import Verif.Predef.Props
import Verif.Curv.Paths

/-!
# Curvature of the spherically symmetric predefined metrics: C62, C64 (static anti-de Sitter), C89

`K` is a differential field: `D s` is the derivative with respect to the symbol s.  Of the functions only the laws stated in
`IsCoords`, `IsConst`, `Trig` and `Hyp` are used, at the arguments that occur.
-/

set_option linter.unusedSectionVars false

namespace Einpy.Predef
open Geo (Along)

section
variable {K : Type} [Field K] [Algebra ℚ K] (D : String → Derivation ℚ K K) (F : Fns K)

/-! ## Specification: the laws of differentiation -/

/-- The symbols `cs` are independent variables. -/
def IsCoords (cs : List String) : Prop := ∀ s ∈ cs, ∀ t ∈ cs, D s (F.var t) = if s = t then 1 else 0

/-- `x` does not depend on the symbols `cs`. -/
def IsConst (cs : List String) (x : K) : Prop := ∀ s ∈ cs, D s x = 0

/-- sin and cos of the symbol `t`: Pythagoras and the derivatives. -/
structure Trig (cs : List String) (t : String) : Prop where
  sq : F.sin (F.var t) ^ 2 + F.cos (F.var t) ^ 2 = 1
  dsin : ∀ s ∈ cs, D s (F.sin (F.var t)) = F.cos (F.var t) * D s (F.var t)
  dcos : ∀ s ∈ cs, D s (F.cos (F.var t)) = -F.sin (F.var t) * D s (F.var t)

/-- sinh and cosh of the symbol `t`. -/
structure Hyp (cs : List String) (t : String) : Prop where
  sq : F.cosh (F.var t) ^ 2 = 1 + F.sinh (F.var t) ^ 2
  dsinh : ∀ s ∈ cs, D s (F.sinh (F.var t)) = F.cosh (F.var t) * D s (F.var t)
  dcosh : ∀ s ∈ cs, D s (F.cosh (F.var t)) = F.sinh (F.var t) * D s (F.var t)

/-- The Ricci tensor the library computes for the metric `p` returned by a predefined function is `T` (covariant components). -/
def RicciIs (p : Py (MetricV K)) (T : Fin 4 → Fin 4 → K) : Prop :=
  ∃ m ric, p = .ok m ∧ ricciFromMetric D m = .ok ric ∧ ric.config = ['l', 'l'] ∧ ric.arr.shape = [4, 4] ∧
    ∀ i j : Fin 4, ric.arr.get [(i:ℕ), (j:ℕ)] = T i j

/-- The Ricci scalar the library computes for the metric `p` returned by a predefined function is `x`. -/
def ScalarIs (p : Py (MetricV K)) (x : K) : Prop :=
  ∃ m s, p = .ok m ∧ scalarFromMetric D m = .ok s ∧ s.expr = x

/-- The Riemann tensor the library computes for the metric `p` returned by a predefined function vanishes. -/
def RiemannVanishes (p : Py (MetricV K)) : Prop :=
  ∃ m rm, p = .ok m ∧ riemannFromMetric D m = .ok rm ∧ rm.arr.shape = [4, 4, 4, 4] ∧
    ∀ i j k l : Fin 4, rm.arr.get [(i:ℕ), (j:ℕ), (k:ℕ), (l:ℕ)] = 0

/-! ## From the library to the formulas -/

variable {D F}

theorem space_of {p : Py (MetricV K)} {cs : List String} {g : Matrix (Fin 4) (Fin 4) K} (h : Returns p cs g)
    (hcs : cs.length = 4) (hu : IsUnit g.det) (hs : g.transpose = g) :
    ∃ m, p = .ok m ∧ IsSpace m g ∧ m.syms = cs := by
  obtain ⟨m, e, h1, h2, h3, h4⟩ := h
  exact ⟨m, e, ⟨⟨h1, hu, Or.inl ⟨h2, h4⟩⟩, by rw [h3, hcs], hs⟩, h3⟩

theorem ricciIs_of {p : Py (MetricV K)} {cs : List String} {g : Matrix (Fin 4) (Fin 4) K} (h : Returns p cs g)
    (hcs : cs.length = 4) (hu : IsUnit g.det) (hs : g.transpose = g) : RicciIs D p (Geo.ricci (coordD D cs 4) g) := by
  obtain ⟨m, e, hm, hsy⟩ := space_of h hcs hu hs
  obtain ⟨a, ea, hc, hcomp⟩ := ricci_ok D m g hm
  refine ⟨m, _, e, ea, rfl, hc, fun i j => ?_⟩
  rw [← hsy]
  exact (comp_two _ _).1 hcomp i j

theorem RicciIs.congr {p : Py (MetricV K)} {T T' : Fin 4 → Fin 4 → K} (h : RicciIs D p T) (hT : ∀ i j, T i j = T' i j) :
    RicciIs D p T' := by
  have : T = T' := by funext i j; exact hT i j
  rwa [← this]

theorem scalarIs_of {p : Py (MetricV K)} {cs : List String} {g : Matrix (Fin 4) (Fin 4) K} (h : Returns p cs g)
    (hcs : cs.length = 4) (hu : IsUnit g.det) (hs : g.transpose = g) : ScalarIs D p (Geo.scalar (coordD D cs 4) g) := by
  obtain ⟨m, e, hm, hsy⟩ := space_of h hcs hu hs
  obtain ⟨s, es, hc⟩ := scalar_ok D m g hm
  refine ⟨m, _, e, es, ?_⟩
  rw [← hsy]
  exact hc.2

theorem riemannVanishes_of {p : Py (MetricV K)} {cs : List String} {g : Matrix (Fin 4) (Fin 4) K} (h : Returns p cs g)
    (hcs : cs.length = 4) (hu : IsUnit g.det) (hs : g.transpose = g)
    (h0 : ∀ i j k l, Geo.riemann (coordD D cs 4) g i j k l = 0) : RiemannVanishes D p := by
  obtain ⟨m, e, hm, hsy⟩ := space_of h hcs hu hs
  obtain ⟨a, ea, hc, hcomp⟩ := riemann_ok D m g hm
  refine ⟨m, _, e, ea, hc, fun i j k l => ?_⟩
  rw [← h0 i j k l, ← hsy]
  exact (comp_four _ _).1 hcomp i j k l

theorem diag_unit {h : Fin 4 → K} (hh : ∀ i, h i ≠ 0) : IsUnit (Matrix.diagonal h).det := by
  rw [Matrix.det_diagonal]
  exact (Finset.prod_ne_zero_iff.2 fun i _ => hh i).isUnit


/-! ## The laws, in terms of coordinate derivatives -/

theorem const_coordD {cs : List String} (hcs : cs.length = 4) {x : K} (h : IsConst D cs x) (j : Fin 4) :
    coordD D cs 4 j x = 0 := by
  unfold coordD
  refine h _ ?_
  rw [List.getD_eq_getElem?_getD, List.getElem?_eq_getElem (by rw [hcs]; exact j.2), Option.getD_some]
  exact List.getElem_mem _

theorem along_of {a b c d : String} {i : Fin 4} {t : String} {x x' : K} (ht : t = ![a, b, c, d] i)
    (hn : List.Nodup [a, b, c, d]) (hco : IsCoords D F [a, b, c, d])
    (h : ∀ s ∈ [a, b, c, d], D s x = x' * D s (F.var t)) : Along (coordD D [a, b, c, d] 4) i x x' := by
  intro j
  have hm : ∀ j : Fin 4, [a, b, c, d].getD (j:ℕ) "" = ![a, b, c, d] j := by
    intro j; fin_cases j <;> rfl
  have hmem : ∀ j : Fin 4, ![a, b, c, d] j ∈ [a, b, c, d] := by
    intro j; fin_cases j <;> simp
  have hinj : ∀ j : Fin 4, ![a, b, c, d] j = ![a, b, c, d] i ↔ j = i := by
    intro j
    simp only [List.nodup_cons, List.mem_cons, List.not_mem_nil, not_or, or_false] at hn
    obtain ⟨⟨h1, h2, h3⟩, ⟨h4, h5⟩, h6, -⟩ := hn
    fin_cases i <;> fin_cases j <;> simp [h1, h2, h3, h4, h5, h6, Ne.symm h1, Ne.symm h2, Ne.symm h3, Ne.symm h4, Ne.symm h5,
      Ne.symm h6]
  unfold coordD
  rw [hm, h _ (hmem j), hco _ (hmem j) _ (by rw [ht]; exact hmem i), ht]
  by_cases hji : j = i
  · rw [if_pos ((hinj j).2 hji), if_pos hji, mul_one]
  · rw [if_neg (fun e => hji ((hinj j).1 e)), if_neg hji, mul_zero]

theorem var_ne {cs : List String} (hco : IsCoords D F cs) {t : String} (ht : t ∈ cs) {x : K} (hx : IsConst D cs x) :
    F.var t ≠ x := by
  intro e
  have h1 := hco t ht t ht
  rw [e, hx t ht, if_pos rfl] at h1
  exact zero_ne_one h1

theorem const_zero {cs : List String} : IsConst D cs (0:K) := fun _ _ => map_zero _

theorem sin_ne {cs : List String} (hco : IsCoords D F cs) {t : String} (ht : t ∈ cs) (h : Trig D F cs t) :
    F.sin (F.var t) ≠ 0 := by
  intro e
  have h1 := h.dsin t ht
  rw [e, map_zero, hco t ht t ht, if_pos rfl, mul_one] at h1
  have h2 := h.sq
  rw [e, ← h1] at h2
  norm_num at h2

theorem cos_ne {cs : List String} (hco : IsCoords D F cs) {t : String} (ht : t ∈ cs) (h : Trig D F cs t) :
    F.cos (F.var t) ≠ 0 := by
  intro e
  have h1 := h.dcos t ht
  rw [e, map_zero, hco t ht t ht, if_pos rfl, mul_one] at h1
  have h2 := h.sq
  rw [e, neg_eq_zero.1 h1.symm] at h2
  norm_num at h2

theorem cosh_ne {cs : List String} (hco : IsCoords D F cs) {t : String} (ht : t ∈ cs) (h : Hyp D F cs t) :
    F.cosh (F.var t) ≠ 0 := by
  intro e
  have h1 := h.dcosh t ht
  rw [e, map_zero, hco t ht t ht, if_pos rfl, mul_one] at h1
  have h2 := h.sq
  rw [e, ← h1] at h2
  norm_num at h2

theorem sinh_ne {cs : List String} (hco : IsCoords D F cs) {t : String} (ht : t ∈ cs) (h : Hyp D F cs t) :
    F.sinh (F.var t) ≠ 0 := by
  intro e
  have h1 := h.dsinh t ht
  rw [e, map_zero, hco t ht t ht, if_pos rfl, mul_one] at h1
  have h2 := h.sq
  rw [e, ← h1] at h2
  norm_num at h2

end

/-! ## static metrics f dt² − (dr²/f + r² dΩ²)/c² -/

section
variable {K : Type} [Field K] [Algebra ℚ K] {d : Fin 4 → Derivation ℚ K K}

theorem ricci_static {f f' f'' r c s k : K} (hr : Along d 1 r 1) (hf : Along d 1 f f') (hf' : Along d 1 f' f'')
    (hf'' : ∀ j, j ≠ 1 → d j f' = 0) (hc : ∀ j, d j c = 0) (hs : Along d 2 s k) (hk : Along d 2 k (-s))
    (hsk : s ^ 2 + k ^ 2 = 1) (f0 : f ≠ 0) (r0 : r ≠ 0) (c0 : c ≠ 0) (s0 : s ≠ 0) (i j : Fin 4) :
    Geo.ricci d (Matrix.diagonal ![f, -1 / (f * c ^ 2), -(r ^ 2) / c ^ 2, -((r * s) ^ 2) / c ^ 2]) i j =
      Matrix.diagonal ![c ^ 2 * f * (f'' / 2 + f' / r), -(f'' / 2 + f' / r) / f, 1 - f - r * f',
        (1 - f - r * f') * s ^ 2] i j := by
  have : CharZero K := algebraRat.charZero K
  have c2 : Along d 1 (c ^ 2) 0 := by
    have := Geo.along_pow (Geo.along_const (i := 1) hc) 2
    simpa using this
  have hc2 : c ^ 2 ≠ 0 := pow_ne_zero 2 c0
  have hB := Geo.along_div (Geo.along_neg Geo.along_one) (Geo.along_mul hf c2) (mul_ne_zero f0 hc2)
  have hC := Geo.along_div (Geo.along_neg (Geo.along_pow hr 2)) c2 hc2
  have hB' : ∀ j, j ≠ 1 → d j ((-0 * (f * c ^ 2) - -1 * (f' * c ^ 2 + f * 0)) / (f * c ^ 2) ^ 2) = 0 := by
    intro j hj
    have e : (-0 * (f * c ^ 2) - -1 * (f' * c ^ 2 + f * 0)) / (f * c ^ 2) ^ 2 = f' / (f ^ 2 * c ^ 2) := by
      field_simp; ring
    rw [e, Derivation.leibniz_div, hf'' j hj]
    have e2 : d j (f ^ 2 * c ^ 2) = 0 := by
      have := (Geo.along_mul (Geo.along_pow hf 2) c2) j
      rwa [if_neg hj] at this
    rw [e2]; simp
  have hC1 : Along d 1 (-(r ^ 2) / c ^ 2) (-2 * r / c ^ 2) := by
    convert hC using 1
    field_simp; norm_num; ring
  have hC' : Along d 1 (-2 * r / c ^ 2) (-2 / c ^ 2) := by
    have := Geo.along_div (Geo.along_mul (Geo.along_neg (Geo.along_two)) hr) c2 hc2
    convert this using 1
    field_simp; ring
  have C0 : -(r ^ 2) / c ^ 2 ≠ 0 := div_ne_zero (neg_ne_zero.2 (pow_ne_zero 2 r0)) hc2
  have B0 : -1 / (f * c ^ 2) ≠ 0 := div_ne_zero (by norm_num) (mul_ne_zero f0 hc2)
  have e3 : -((r * s) ^ 2) / c ^ 2 = -(r ^ 2) / c ^ 2 * s ^ 2 := by ring
  rw [e3, Geo.ricci_spherical d hf hB hC1 hf' hC' hB' hs hk hsk f0 B0 C0 s0]
  refine congrFun (congrFun (congrArg Matrix.diagonal ?_) i) j
  funext l
  fin_cases l
  · show _ = c ^ 2 * f * (f'' / 2 + f' / r)
    simp
    field_simp
    ring
  · show _ = -(f'' / 2 + f' / r) / f
    simp
    field_simp
    ring
  · show _ = 1 - f - r * f'
    simp
    field_simp
    ring
  · show _ = (1 - f - r * f') * s ^ 2
    simp
    left
    field_simp
    ring

end

/-! ## The properties -/

section
variable {K : Type} [Field K] [Algebra ℚ K] {D : String → Derivation ℚ K K} {F : Fns K}

/-- The coordinates of the predefined spherical metrics. -/
abbrev sph : List String := ["t", "r", "theta", "phi"]

theorem sph_nodup : sph.Nodup := by decide

theorem sph_laws (hco : IsCoords D F sph) (hth : Trig D F sph "theta") :
    Along (coordD D sph 4) 1 (F.var "r") 1 ∧ Along (coordD D sph 4) 2 (F.sin (F.var "theta")) (F.cos (F.var "theta")) ∧
    Along (coordD D sph 4) 2 (F.cos (F.var "theta")) (-F.sin (F.var "theta")) ∧ F.var "r" ≠ 0 ∧
    F.sin (F.var "theta") ≠ 0 :=
  ⟨along_of rfl sph_nodup hco fun s _ => (one_mul _).symm, along_of rfl sph_nodup hco hth.dsin,
    along_of rfl sph_nodup hco hth.dcos, var_ne hco (by decide) const_zero, sin_ne hco (by decide) hth⟩

/-- C62: the Ricci tensor of the predefined Schwarzschild metric vanishes, for all constants c ≠ 0 and r_s. -/
theorem C62_schwarzschild_vacuum (c sch : K) (hco : IsCoords D F sph) (hth : Trig D F sph "theta") (hc : IsConst D sph c)
    (hsch : IsConst D sph sch) (c0 : c ≠ 0) : RicciIs D (schwarzschild F c sch) fun _ _ => 0 := by
  have : CharZero K := algebraRat.charZero K
  obtain ⟨hr, hs, hk, r0, s0⟩ := sph_laws hco hth
  have hR := returns_diag (1 - sch / F.var "r") (-1 / ((1 - sch / F.var "r") * c ^ 2)) (-(F.var "r" ^ 2) / c ^ 2)
    (-((F.var "r" * F.sin (F.var "theta")) ^ 2) / c ^ 2) sph "SchwarzschildMetric" rfl
  have hsq := hth.sq
  have hcd := const_coordD rfl hc
  have hsd := const_coordD rfl hsch
  have f0 : 1 - sch / F.var "r" ≠ 0 := by
    intro e
    refine var_ne hco (t := "r") (by decide) hsch ?_
    field_simp at e
    linear_combination e
  unfold schwarzschild
  dsimp only
  generalize F.var "r" = r at *
  generalize F.sin (F.var "theta") = s at *
  generalize F.cos (F.var "theta") = k at *
  have hc2 : c ^ 2 ≠ 0 := pow_ne_zero 2 c0
  refine (ricciIs_of hR rfl (diag_unit ?_) (Matrix.diagonal_transpose _)).congr ?_
  · intro i
    fin_cases i
    · exact f0
    · exact div_ne_zero (by norm_num) (mul_ne_zero f0 hc2)
    · exact div_ne_zero (neg_ne_zero.2 (pow_ne_zero 2 r0)) hc2
    · exact div_ne_zero (neg_ne_zero.2 (pow_ne_zero 2 (mul_ne_zero r0 s0))) hc2
  · have hf : Along (coordD D sph 4) 1 (1 - sch / r) (sch / r ^ 2) := by
      convert Geo.along_sub Geo.along_one (Geo.along_div (Geo.along_const (i := 1) hsd) hr r0) using 1
      ring
    have hf' : Along (coordD D sph 4) 1 (sch / r ^ 2) (-2 * sch / r ^ 3) := by
      convert Geo.along_div (Geo.along_const (i := 1) hsd) (Geo.along_pow hr 2) (pow_ne_zero 2 r0) using 1
      push_cast; field_simp; ring
    intro i j
    rw [ricci_static hr hf hf' (fun j hj => by rw [hf' j, if_neg hj]) hcd hs hk hsq f0 r0 c0 s0]
    have e1 : -2 * sch / r ^ 3 / 2 + sch / r ^ 2 / r = 0 := by field_simp; ring
    have e2 : 1 - (1 - sch / r) - r * (sch / r ^ 2) = 0 := by field_simp; ring
    rw [e1, e2, Matrix.diagonal_apply]
    fin_cases i <;> fin_cases j <;> simp

theorem quad_ne {d : Fin 4 → Derivation ℚ K K} {r a q : K} (hr : Along d 1 r 1) (ha : ∀ j, d j a = 0) (hq : ∀ j, d j q = 0) :
    r ^ 2 - a * r + q ≠ 0 := by
  have : CharZero K := algebraRat.charZero K
  intro e
  have h1 := congrArg (d 1) e
  rw [map_add, map_sub, Derivation.leibniz_pow, Derivation.leibniz, hr 1, ha, hq, map_zero] at h1
  simp at h1
  have h2 := congrArg (d 1) h1
  have h3 : d 1 (2:K) = 0 := by
    have := Derivation.map_natCast (d 1) 2
    rwa [Nat.cast_ofNat] at this
  rw [map_sub, Derivation.leibniz, hr 1, ha, h3, map_zero] at h2
  simp at h2

theorem rn_const {c G eps_0 Q : K} (hc : IsConst D sph c) (hG : IsConst D sph G) (he : IsConst D sph eps_0)
    (hp : IsConst D sph F.pi) (hQ : IsConst D sph Q) (j : Fin 4) :
    coordD D sph 4 j (Q ^ 2 * G / (4 * F.pi * eps_0 * c ^ 4)) = 0 := by
  have h4 : coordD D sph 4 j (4:K) = 0 := by
    have := Derivation.map_natCast (coordD D sph 4 j) 4
    rwa [Nat.cast_ofNat] at this
  rw [Derivation.leibniz_div, Derivation.leibniz, Derivation.leibniz_pow, Derivation.leibniz, Derivation.leibniz,
    Derivation.leibniz, Derivation.leibniz_pow, const_coordD rfl hQ, const_coordD rfl hG, const_coordD rfl hp,
    const_coordD rfl he, const_coordD rfl hc, h4]
  simp

/-- C89 (Reissner–Nordström): the Ricci tensor is that of the field of a charge: ± (c² r_Q²/r⁴) g with opposite signs on the
(t,r) and the angular block. -/
theorem C89_rn_ricci (c G eps_0 sch Q : K) (hco : IsCoords D F sph) (hth : Trig D F sph "theta") (hc : IsConst D sph c)
    (hG : IsConst D sph G) (he : IsConst D sph eps_0) (hp : IsConst D sph F.pi)
    (hsch : IsConst D sph sch) (hQ : IsConst D sph Q) (c0 : c ≠ 0)
    {g : Matrix (Fin 4) (Fin 4) K} (hg : Returns (reissnerNordstorm F c G eps_0 sch Q) sph g) :
    RicciIs D (reissnerNordstorm F c G eps_0 sch Q) fun i j =>
      (if i = 0 ∨ i = 1 then 1 else -1) * (c ^ 2 * (Q ^ 2 * G / (4 * F.pi * eps_0 * c ^ 4)) / F.var "r" ^ 4) * g i j := by
  have : CharZero K := algebraRat.charZero K
  obtain ⟨hr, hs, hk, r0, s0⟩ := sph_laws hco hth
  have hsq := hth.sq
  have hcd := const_coordD rfl hc
  have hsd := const_coordD rfl hsch
  have hqd : ∀ j, coordD D sph 4 j (Q ^ 2 * G / (4 * F.pi * eps_0 * c ^ 4)) = 0 := rn_const hc hG he hp hQ
  have hR := returns_diag (1 - sch / F.var "r" + Q ^ 2 * G / (4 * F.pi * eps_0 * c ^ 4) / F.var "r" ^ 2)
    (-1 / ((1 - sch / F.var "r" + Q ^ 2 * G / (4 * F.pi * eps_0 * c ^ 4) / F.var "r" ^ 2) * c ^ 2))
    (-(F.var "r" ^ 2) / c ^ 2) (-(F.var "r" ^ 2) * F.sin (F.var "theta") ^ 2 / c ^ 2) sph "ReissnerNordstormMetric" rfl
  have hgg := (hg.inj hR).2
  subst hgg
  clear hg
  unfold reissnerNordstorm
  dsimp only
  generalize Q ^ 2 * G / (4 * F.pi * eps_0 * c ^ 4) = q at *
  generalize F.var "r" = r at *
  generalize F.sin (F.var "theta") = s at *
  generalize F.cos (F.var "theta") = k at *
  have hc2 : c ^ 2 ≠ 0 := pow_ne_zero 2 c0
  have f1 : 1 - sch / r + q / r ^ 2 ≠ 0 := by
    intro e; apply quad_ne hr hsd hqd; field_simp at e; linear_combination e
  refine (ricciIs_of hR rfl (diag_unit ?_) (Matrix.diagonal_transpose _)).congr ?_
  · intro i
    fin_cases i
    · exact f1
    · exact div_ne_zero (by norm_num) (mul_ne_zero f1 hc2)
    · exact div_ne_zero (neg_ne_zero.2 (pow_ne_zero 2 r0)) hc2
    · exact div_ne_zero (mul_ne_zero (neg_ne_zero.2 (pow_ne_zero 2 r0)) (pow_ne_zero 2 s0)) hc2
  · have hf : Along (coordD D sph 4) 1 (1 - sch / r + q / r ^ 2) (sch / r ^ 2 - 2 * q / r ^ 3) := by
      convert Geo.along_add (Geo.along_sub Geo.along_one (Geo.along_div (Geo.along_const (i := 1) hsd) hr r0))
        (Geo.along_div (Geo.along_const (i := 1) hqd) (Geo.along_pow hr 2) (pow_ne_zero 2 r0)) using 1
      field_simp; norm_num; ring
    have hf' : Along (coordD D sph 4) 1 (sch / r ^ 2 - 2 * q / r ^ 3) (-2 * sch / r ^ 3 + 6 * q / r ^ 4) := by
      convert Geo.along_sub (Geo.along_div (Geo.along_const (i := 1) hsd) (Geo.along_pow hr 2) (pow_ne_zero 2 r0))
        (Geo.along_div (Geo.along_mul Geo.along_two (Geo.along_const (i := 1) hqd)) (Geo.along_pow hr 3)
          (pow_ne_zero 3 r0)) using 1
      field_simp; norm_num; ring
    intro i j
    have e3 : -(r ^ 2) * s ^ 2 / c ^ 2 = -((r * s) ^ 2) / c ^ 2 := by ring
    rw [e3, ricci_static hr hf hf' (fun j hj => by rw [hf' j, if_neg hj]) hcd hs hk hsq f1 r0 c0 s0]
    have e1 : (-2 * sch / r ^ 3 + 6 * q / r ^ 4) / 2 + (sch / r ^ 2 - 2 * q / r ^ 3) / r = q / r ^ 4 := by
      field_simp; ring
    have e2 : 1 - (1 - sch / r + q / r ^ 2) - r * (sch / r ^ 2 - 2 * q / r ^ 3) = q / r ^ 2 := by field_simp; ring
    rw [e1, e2, Matrix.diagonal_apply, Matrix.diagonal_apply]
    generalize 1 - sch / r + q / r ^ 2 = f at *
    fin_cases i <;> fin_cases j <;> simp <;> field_simp

end

end Einpy.Predef
