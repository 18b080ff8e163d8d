import Verif.Predef.Instance
import Verif.Predef.Bessel
import Verif.Predef.Jnw

/-!
# Non-vacuity of C102 and C103

`ta:t` is tan(t/2), `J0`, `J1` the two Bessel functions of ρ, `P`, `Q`, `R` the three exponentials.
-/

namespace Einpy.Predef

noncomputable section

/-- Derivatives of the symbols but the exponentials. -/
def bgB (s g : String) : Rat0 :=
  if g = s then 1 else if s = "t" ∧ g = "ta:t" then (1 + gen g ^ 2) / 2 else if s = "rho" ∧ g = "J0" then -gen "J1"
  else if s = "rho" ∧ g = "J1" then gen "J0" - gen "J1" / gen "rho" else 0

/-- The functions, with exponentials at `U` and `W`; `j0` and `j1` are the values of `besselj(rho, 0)` and `besselj(rho, 1)`. -/
def bgF (j0 j1 U W : Rat0) : Fns Rat0 := { exF with
  besselj := fun _ n => if n = 0 then j0 else j1
  exp := fun z => if z = -2 * U then gen "P" else if z = 2 * W then gen "Q" else gen "R" }

/-- Derivatives of all symbols. -/
def bgD (U W : Rat0) (s : String) : Derivation ℚ Rat0 Rat0 := mkD fun g =>
  if g = "P" then gen "P" * mkD (bgB s) (-2 * U) else if g = "Q" then gen "Q" * mkD (bgB s) (2 * W)
  else if g = "R" then gen "R" * mkD (bgB s) (2 * U) else bgB s g

theorem bgD_gen (U W : Rat0) (s g : String) (h : g ≠ "P" ∧ g ≠ "Q" ∧ g ≠ "R") : bgD U W s (gen g) = bgB s g := by
  unfold bgD
  rw [mkD_gen, if_neg h.1, if_neg h.2.1, if_neg h.2.2]

theorem bg_laws (j0 j1 C U W : Rat0) (hU : U = bgU (bgF j0 j1 U W) C) (hW : W = bgW (bgF j0 j1 U W) C)
    (aC : ∀ s ∈ bgw, bgD U W s C = 0) (aU : ∀ s ∈ bgw, bgD U W s U = mkD (bgB s) U) (aW : ∀ s ∈ bgw, bgD U W s W = mkD (bgB s) W) :
    BgwLaws (bgD U W) (bgF j0 j1 U W) C := by
  have k : ∀ z, z = -2 * U ∨ z = 2 * W ∨ z = 2 * U → ExpAt (bgD U W) (bgF j0 j1 U W) bgw z := by
    have a1 : ∀ s ∈ bgw, bgD U W s (-2 * U) = mkD (bgB s) (-2 * U) := by
      intro s hs
      rw [Derivation.leibniz, Derivation.leibniz, map_neg, map_neg, d_two, d_two, aU s hs]
    have a2 : ∀ s ∈ bgw, bgD U W s (2 * W) = mkD (bgB s) (2 * W) := by
      intro s hs
      rw [Derivation.leibniz, Derivation.leibniz, d_two, d_two, aW s hs]
    have a3 : ∀ s ∈ bgw, bgD U W s (2 * U) = mkD (bgB s) (2 * U) := by
      intro s hs
      rw [Derivation.leibniz, Derivation.leibniz, d_two, d_two, aU s hs]
    have b1 : ∀ s, bgD U W s (gen "P") = gen "P" * mkD (bgB s) (-2 * U) := fun s => by
      unfold bgD; rw [mkD_gen, if_pos rfl]
    have b2 : ∀ s, bgD U W s (gen "Q") = gen "Q" * mkD (bgB s) (2 * W) := fun s => by
      unfold bgD; rw [mkD_gen, if_neg (by decide), if_pos rfl]
    have b3 : ∀ s, bgD U W s (gen "R") = gen "R" * mkD (bgB s) (2 * U) := fun s => by
      unfold bgD; rw [mkD_gen, if_neg (by decide), if_neg (by decide), if_pos rfl]
    intro z hz
    have e : (bgF j0 j1 U W).exp z = if z = -2 * U then gen "P" else if z = 2 * W then gen "Q" else gen "R" := rfl
    by_cases c1 : z = -2 * U
    · rw [if_pos c1] at e
      refine ⟨by rw [e]; exact gen_ne _, fun s hs => ?_⟩
      rw [e, b1, c1, a1 s hs]
    · rw [if_neg c1] at e
      by_cases c2 : z = 2 * W
      · rw [if_pos c2] at e
        refine ⟨by rw [e]; exact gen_ne _, fun s hs => ?_⟩
        rw [e, b2, c2, a2 s hs]
      · rw [if_neg c2] at e
        have c3 : z = 2 * U := (hz.resolve_left c1).resolve_left c2
        refine ⟨by rw [e]; exact gen_ne _, fun s hs => ?_⟩
        rw [e, b3, c3, a3 s hs]
  have hv : ∀ s ∈ bgw, ∀ t ∈ bgw, bgD U W s (gen t) = if s = t then 1 else 0 := by
    have h : ∀ t ∈ bgw, (t ≠ "P" ∧ t ≠ "Q" ∧ t ≠ "R") ∧ t ≠ "ta:t" ∧ t ≠ "J0" ∧ t ≠ "J1" := by decide
    intro s hs t ht
    obtain ⟨h0, h1, h2, h3⟩ := h t ht
    rw [bgD_gen U W s t h0]
    unfold bgB
    by_cases e : t = s
    · rw [if_pos e, if_pos e.symm]
    · rw [if_neg e, if_neg (fun h => h1 h.2), if_neg (fun h => h2 h.2), if_neg (fun h => h3 h.2), if_neg (Ne.symm e)]
  refine ⟨hv, ?_, aC, ?_, ?_, ?_⟩
  · have E := exF_t bgw
    refine trig_of (u := gen "ta:t") (one_add_sq_ne "ta:t") ?_ ?_ fun s hs => ?_
    · show 2 * (if gen "t" = gen "t" then gen "ta:t" else gen "ta:theta") / (1 + (if gen "t" = gen "t" then gen "ta:t"
        else gen "ta:theta") ^ 2) = _
      rw [if_pos rfl]
    · show (1 - (if gen "t" = gen "t" then gen "ta:t" else gen "ta:theta") ^ 2) / (1 + (if gen "t" = gen "t" then
        gen "ta:t" else gen "ta:theta") ^ 2) = _
      rw [if_pos rfl]
    · show _ = _ * bgD U W s (gen "t")
      rw [hv s hs "t" (by decide), bgD_gen U W s _ (by decide)]
      have hm : ∀ s ∈ bgw, "ta:t" ≠ s := by decide
      unfold bgB
      rw [if_neg (hm s hs)]
      by_cases e : s = "t"
      · rw [if_pos ⟨e, rfl⟩, if_pos e, mul_one]
      · rw [if_neg (fun h => e h.1), if_neg (fun h => absurd h.2 (by decide)), if_neg (fun h => absurd h.2 (by decide)), if_neg e, mul_zero]
  · rw [← hU]; exact k _ (Or.inl rfl)
  · rw [← hW]; exact k _ (Or.inr (Or.inl rfl))
  · rw [← hU]; exact k _ (Or.inr (Or.inr rfl))

/-- cos t. -/
def bgc : Rat0 := (1 - gen "ta:t" ^ 2) / (1 + gen "ta:t" ^ 2)

theorem bgc_d (U W : Rat0) (s : String) : bgD U W s bgc = mkD (bgB s) bgc := by
  unfold bgc
  simp only [Derivation.leibniz_div, map_sub, map_add, Derivation.leibniz_pow, Derivation.map_one_eq_zero,
    bgD_gen U W s "ta:t" (by decide), mkD_gen]

/-- C102_intended_partial applies: C = 3. -/
example : ∃ (D : String → Derivation ℚ Rat0 Rat0) (F : Fns Rat0), RicciIs D (besselGravitationalWave F 3) fun _ _ => 0 := by
  let U : Rat0 := 3 * gen "J0" * bgc
  let W : Rat0 := (1 / 2) * (3 ^ 2) * gen "rho" * ((gen "rho" * ((gen "J0" ^ 2) + (gen "J1" ^ 2))) - (2 * gen "J0" * gen "J1" * (bgc ^ 2)))
  have d3 : ∀ (D : Derivation ℚ Rat0 Rat0), D (3:Rat0) = 0 := fun D => by
    have := Derivation.map_natCast D 3
    rwa [Nat.cast_ofNat] at this
  have hc : (bgF (gen "J0") (gen "J1") U W).cos (gen "t") = bgc := by
    show (1 - (if gen "t" = gen "t" then gen "ta:t" else gen "ta:theta") ^ 2) / (1 + (if gen "t" = gen "t" then
        gen "ta:t" else gen "ta:theta") ^ 2) = _
    rw [if_pos rfl]; rfl
  have e0 : (bgF (gen "J0") (gen "J1") U W).besselj (gen "rho") 0 = gen "J0" := if_pos rfl
  have e1 : (bgF (gen "J0") (gen "J1") U W).besselj (gen "rho") 1 = gen "J1" := if_neg one_ne_zero
  have hv : (bgF (gen "J0") (gen "J1") U W).var = gen := rfl
  have L : BgwLaws (bgD U W) (bgF (gen "J0") (gen "J1") U W) 3 := by
    refine bg_laws _ _ _ _ _ ?_ ?_ ?_ ?_ ?_
    · unfold bgU; rw [hv, hc, e0]
    · unfold bgW; rw [hv, hc, e0, e1]
    · intro s _; exact d3 _
    · intro s _
      show bgD U W s (3 * gen "J0" * bgc) = mkD (bgB s) (3 * gen "J0" * bgc)
      simp only [Derivation.leibniz, d3, bgc_d, bgD_gen U W s "J0" (by decide), mkD_gen]
    · intro s _
      show bgD U W s ((1 / 2) * (3 ^ 2) * gen "rho" * ((gen "rho" * ((gen "J0" ^ 2) + (gen "J1" ^ 2))) - (2 * gen "J0" * gen "J1" * (bgc ^ 2)))) =
        mkD (bgB s) ((1 / 2) * (3 ^ 2) * gen "rho" * ((gen "rho" * ((gen "J0" ^ 2) + (gen "J1" ^ 2))) - (2 * gen "J0" * gen "J1" * (bgc ^ 2))))
      simp only [Derivation.leibniz, Derivation.leibniz_pow, Derivation.leibniz_div, Derivation.map_one_eq_zero, map_sub, map_add, d3, d_two,
        bgc_d, bgD_gen U W s "J0" (by decide), bgD_gen U W s "J1" (by decide), bgD_gen U W s "rho" (by decide), mkD_gen]
  refine ⟨_, _, C102_intended_partial L ?_ ?_⟩
  · intro s hs
    rw [hv, e0, e1, bgD_gen U W s _ (by decide), bgD_gen U W s _ (by decide)]
    have hm : ∀ s ∈ bgw, "J0" ≠ s := by decide
    unfold bgB
    rw [if_neg (hm s hs), if_neg (fun h => absurd h.2 (by decide))]
    by_cases e : s = "rho"
    · rw [if_pos ⟨e, rfl⟩, if_pos e.symm, mul_one]
    · rw [if_neg (fun h => e h.1), if_neg (fun h => absurd h.2 (by decide)), if_neg (Ne.symm e), if_neg (fun h => absurd h.2 (by decide)), if_neg (fun h => absurd h.2 (by decide)), if_neg (fun h => absurd h.2 (by decide)), mul_zero]
  · intro s hs
    rw [hv, e0, e1, bgD_gen U W s _ (by decide), bgD_gen U W s _ (by decide)]
    have hm : ∀ s ∈ bgw, "J1" ≠ s := by decide
    unfold bgB
    rw [if_neg (hm s hs), if_neg (fun h => absurd h.2 (by decide)), if_neg (fun h => absurd h.2 (by decide))]
    by_cases e : s = "rho"
    · rw [if_pos ⟨e, rfl⟩, if_pos e.symm, mul_one]
    · rw [if_neg (fun h => e h.1), if_neg (Ne.symm e), if_neg (fun h => absurd h.2 (by decide)), if_neg (fun h => absurd h.2 (by decide)), if_neg (fun h => absurd h.2 (by decide)), mul_zero]

/-- C102_refuted applies (to a function of ρ in the place of `besselj(rho, 1)`), and yields a metric that is no vacuum solution. -/
example : ∃ (D : String → Derivation ℚ Rat0 Rat0) (F : Fns Rat0), F.besselj (F.var "rho") 0 = 0 ∧ BgwLaws D F 3 ∧
    ¬ RicciIs D (besselGravitationalWave F 3) fun _ _ => 0 := by
  let U : Rat0 := 0
  let W : Rat0 := (1 / 2) * (3 ^ 2) * gen "rho" * ((gen "rho" * ((0 ^ 2) + (gen "rho" ^ 2))) - (2 * 0 * gen "rho" * (bgc ^ 2)))
  have d3 : ∀ (D : Derivation ℚ Rat0 Rat0), D (3:Rat0) = 0 := fun D => by
    have := Derivation.map_natCast D 3
    rwa [Nat.cast_ofNat] at this
  have hc : (bgF 0 (gen "rho") U W).cos (gen "t") = bgc := by
    show (1 - (if gen "t" = gen "t" then gen "ta:t" else gen "ta:theta") ^ 2) / (1 + (if gen "t" = gen "t" then
        gen "ta:t" else gen "ta:theta") ^ 2) = _
    rw [if_pos rfl]; rfl
  have e0 : (bgF 0 (gen "rho") U W).besselj (gen "rho") 0 = 0 := if_pos rfl
  have e1 : (bgF 0 (gen "rho") U W).besselj (gen "rho") 1 = gen "rho" := if_neg one_ne_zero
  have hv : (bgF 0 (gen "rho") U W).var = gen := rfl
  have L : BgwLaws (bgD U W) (bgF 0 (gen "rho") U W) 3 := by
    refine bg_laws _ _ _ _ _ ?_ ?_ ?_ ?_ ?_
    · unfold bgU; rw [hv, hc, e0, mul_zero, zero_mul]
    · unfold bgW; rw [hv, hc, e0, e1]
    · intro s _; exact d3 _
    · intro s _
      show bgD U W s 0 = mkD (bgB s) 0
      rw [map_zero, map_zero]
    · intro s _
      show bgD U W s ((1 / 2) * (3 ^ 2) * gen "rho" * ((gen "rho" * ((0 ^ 2) + (gen "rho" ^ 2))) - (2 * 0 * gen "rho" * (bgc ^ 2)))) =
        mkD (bgB s) ((1 / 2) * (3 ^ 2) * gen "rho" * ((gen "rho" * ((0 ^ 2) + (gen "rho" ^ 2))) - (2 * 0 * gen "rho" * (bgc ^ 2))))
      simp only [Derivation.leibniz, Derivation.leibniz_pow, Derivation.leibniz_div, Derivation.map_one_eq_zero, map_sub, map_add, map_zero, d3, d_two,
        bgc_d, bgD_gen U W s "rho" (by decide), mkD_gen]
  have R := (C102_refuted (J' := 1) (J'' := 0) L (by rw [hv]; exact e0) (by intro s _; rw [hv, e1, one_mul])
    (by intro s _; rw [Derivation.map_one_eq_zero, zero_mul])).2
  refine ⟨_, _, by rw [hv]; exact e0, L, fun h => ?_⟩
  have := R.1 h
  rw [hv, e1, mul_one, ← two_mul] at this
  exact mul_ne_zero (mul_ne_zero three_ne_zero (gen_ne _)) (mul_ne_zero two_ne_zero (gen_ne _)) this

/-- `exF` with the powers of exponents 2, −2 and −1. -/
def jnwF : Fns Rat0 := { exF with pow := fun x y => if y = 2 then x ^ 2 else if y = -2 then 1 / x ^ 2 else 1 / x }

theorem jnw_laws : JnwLaws exD jnwF 2 (2 * 1 * gen "M" / 1 ^ 2 / 2) := by
  have e : (2 * 1 * gen "M" / 1 ^ 2 / 2 : Rat0) = gen "M" := by field_simp
  have hv : jnwF.var = gen := rfl
  rw [e]
  have a0 : 1 - gen "M" / gen "r" ≠ 0 := by
    have r0 := gen_ne "r"
    intro h
    have h1 : gen "r" = gen "M" := by field_simp at h; linear_combination h
    exact absurd (gen_inj h1) (by decide)
  have n1 : (-2:Rat0) ≠ 2 := by norm_num
  have n2 : (-2 + 1:Rat0) ≠ 2 := by norm_num
  have n3 : (-2 + 1:Rat0) ≠ -2 := by norm_num
  have p2 : ∀ x, jnwF.pow x 2 = x ^ 2 := fun x => if_pos rfl
  have pm2 : ∀ x, jnwF.pow x (-2) = 1 / x ^ 2 := fun x => (if_neg n1).trans (if_pos rfl)
  have pm1 : ∀ x, jnwF.pow x (-2 + 1) = 1 / x := fun x => (if_neg n2).trans (if_neg n3)
  refine ⟨⟨?_, fun s hs => ?_⟩, ?_, ?_⟩
  · rw [hv, pm2]; exact one_div_ne_zero (pow_ne_zero 2 a0)
  · rw [hv, pm2]
    generalize 1 - gen "M" / gen "r" = al at *
    rw [Derivation.leibniz_div, Derivation.map_one_eq_zero, Derivation.leibniz_pow]
    simp
    field_simp
  · rw [hv, p2, pm2, one_div_one_div]
  · rw [hv, pm1, pm2]; field_simp

/-- C103 applies, and this metric has a non-vanishing scalar field. -/
example : RicciIs exD (janisNewmanWinicour jnwF 1 1 2 (gen "M")) (Matrix.diagonal ![0,
      (1 - 2 ^ 2) * (2 * 1 * gen "M" / 1 ^ 2 / 2) ^ 2 / (2 * gen "r" ^ 2 * (gen "r" - 2 * 1 * gen "M" / 1 ^ 2 / 2) ^ 2),
      1 - 1 ^ 2, (1 - 1 ^ 2) * exF.sin (gen "theta") ^ 2]) ∧
    ∃ x, RicciIs exD (janisNewmanWinicour jnwF 1 1 2 (gen "M")) fun i j => if i = 1 ∧ j = 1 then x else 0 := by
  have hth := exF_theta sph
  have o : IsConst exD sph (1:Rat0) := fun s _ => (exD s).map_one_eq_zero
  have t : IsConst exD sph (2:Rat0) := fun s _ => d_two _
  exact ⟨C103_ricci_partial (F := jnwF) (exF_coords sph) ⟨hth.sq, hth.dsin, hth.dcos⟩ o o t (exF_const sph "M") one_ne_zero two_ne_zero jnw_laws,
    (C103_refuted (F := jnwF) (exF_coords sph) ⟨hth.sq, hth.dsin, hth.dcos⟩ o o t (exF_const sph "M") one_ne_zero two_ne_zero jnw_laws).2
      (one_pow 2)⟩

end
end Einpy.Predef
