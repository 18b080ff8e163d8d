import Verif.Predef.Field
import Verif.Predef.Davidson
import Verif.Predef.Kerr
import Verif.Predef.CMetric

/-!
# Non-vacuity of C62, C63, C64, C89-C96: the hypotheses hold in a field of rational functions

sin θ = 2u/(1+u²), cos θ = (1−u²)/(1+u²) with the half-angle tangent u, and u' = (1+u²)/2; likewise sinh and cosh.
-/

namespace Einpy.Predef

noncomputable section

theorem gen_poly_ne (p : Poly) (h : MvPolynomial.eval (fun _ => (0:ℝ)) p ≠ 0) : algebraMap Poly Rat0 p ≠ 0 := by
  intro e
  have : p = 0 := IsFractionRing.injective Poly Rat0 (by rw [map_zero]; exact e)
  rw [this, map_zero] at h
  exact h rfl

theorem one_add_sq_ne (s : String) : 1 + gen s ^ 2 ≠ 0 := by
  have := gen_poly_ne (1 + MvPolynomial.X s ^ 2) (by simp)
  simpa [gen] using this

theorem one_sub_sq_ne (s : String) : 1 - gen s ^ 2 ≠ 0 := by
  have := gen_poly_ne (1 - MvPolynomial.X s ^ 2) (by simp)
  simpa [gen] using this

/-- The derivative with respect to the symbol s: `ta:s` is tan(s/2), `th:s` is tanh(s/2), `ex:s` is exp(2s/alpha). -/
def exD (s : String) : Derivation ℚ Rat0 Rat0 := mkD fun g =>
  if g = s then 1 else if g = "ta:" ++ s then (1 + gen g ^ 2) / 2 else if g = "th:" ++ s then (1 - gen g ^ 2) / 2
  else if g = "ex:" ++ s then 2 / gen "alpha" * gen g else 0

/-- The elementary functions at the arguments that occur. -/
def exF : Fns Rat0 where
  var := gen
  sin z := let u := if z = gen "t" then gen "ta:t" else gen "ta:theta"; 2 * u / (1 + u ^ 2)
  cos z := let u := if z = gen "t" then gen "ta:t" else gen "ta:theta"; (1 - u ^ 2) / (1 + u ^ 2)
  sinh z := let u := if z = gen "r" then gen "th:r" else gen "th:chi"; 2 * u / (1 - u ^ 2)
  cosh z := let u := if z = gen "r" then gen "th:r" else gen "th:chi"; (1 + u ^ 2) / (1 - u ^ 2)
  tanh := id
  exp z := if z = 2 * gen "x" / gen "alpha" then gen "ex:x" else gen "ex:t"
  sqrt := id
  pow x _ := x
  besselj x _ := x
  fn _ x := x
  pi := algebraMap ℝ Rat0 3

theorem exD_var (s t : String) (h1 : t ≠ "ta:" ++ s := by decide) (h2 : t ≠ "th:" ++ s := by decide)
    (h3 : t ≠ "ex:" ++ s := by decide) : exD s (gen t) = if s = t then 1 else 0 := by
  unfold exD
  rw [mkD_gen]
  by_cases h : t = s
  · rw [if_pos h, if_pos h.symm]
  · rw [if_neg h, if_neg h1, if_neg h2, if_neg h3, if_neg (Ne.symm h)]

theorem exF_coords (cs : List String) (h : ∀ s ∈ cs, ∀ t ∈ cs, t ≠ "ta:" ++ s ∧ t ≠ "th:" ++ s ∧ t ≠ "ex:" ++ s := by decide) :
    IsCoords exD exF cs := by
  intro s hs t ht
  obtain ⟨h1, h2, h3⟩ := h s hs t ht
  exact exD_var s t h1 h2 h3

theorem exF_const (cs : List String) (t : String)
    (h : ∀ s ∈ cs, t ≠ s ∧ t ≠ "ta:" ++ s ∧ t ≠ "th:" ++ s ∧ t ≠ "ex:" ++ s := by decide) :
    IsConst exD cs (gen t) := by
  intro s hs
  obtain ⟨h0, h1, h2, h3⟩ := h s hs
  rw [exD_var s t h1 h2 h3, if_neg (Ne.symm h0)]

theorem trig_of {D : String → Derivation ℚ Rat0 Rat0} {F : Fns Rat0} {cs : List String} {t : String} {u : Rat0}
    (h0 : 1 + u ^ 2 ≠ 0) (hs : F.sin (F.var t) = 2 * u / (1 + u ^ 2)) (hc : F.cos (F.var t) = (1 - u ^ 2) / (1 + u ^ 2))
    (hd : ∀ s ∈ cs, D s u = (1 + u ^ 2) / 2 * D s (F.var t)) : Trig D F cs t := by
  have h2 : ∀ s, D s (2:Rat0) = 0 := fun s => by
    have := Derivation.map_natCast (D s) 2
    rwa [Nat.cast_ofNat] at this
  refine ⟨?_, fun s h => ?_, fun s h => ?_⟩
  · rw [hs, hc]; field_simp; ring
  · rw [hs, hc, Derivation.leibniz_div, Derivation.leibniz, map_add, Derivation.leibniz_pow, hd s h, h2,
      Derivation.map_one_eq_zero]
    simp only [smul_eq_mul, nsmul_eq_mul]
    push_cast
    field_simp
    ring
  · rw [hs, hc, Derivation.leibniz_div, map_sub, map_add, Derivation.leibniz_pow, hd s h,
      Derivation.map_one_eq_zero]
    simp only [smul_eq_mul, nsmul_eq_mul]
    push_cast
    field_simp
    ring

theorem hyp_of {D : String → Derivation ℚ Rat0 Rat0} {F : Fns Rat0} {cs : List String} {t : String} {u : Rat0}
    (h0 : 1 - u ^ 2 ≠ 0) (hs : F.sinh (F.var t) = 2 * u / (1 - u ^ 2)) (hc : F.cosh (F.var t) = (1 + u ^ 2) / (1 - u ^ 2))
    (hd : ∀ s ∈ cs, D s u = (1 - u ^ 2) / 2 * D s (F.var t)) : Hyp D F cs t := by
  have h2 : ∀ s, D s (2:Rat0) = 0 := fun s => by
    have := Derivation.map_natCast (D s) 2
    rwa [Nat.cast_ofNat] at this
  refine ⟨?_, fun s h => ?_, fun s h => ?_⟩
  · rw [hs, hc]; field_simp; ring
  · rw [hs, hc, Derivation.leibniz_div, Derivation.leibniz, map_sub, Derivation.leibniz_pow, hd s h, h2,
      Derivation.map_one_eq_zero]
    simp only [smul_eq_mul, nsmul_eq_mul]
    push_cast
    field_simp
    ring
  · rw [hs, hc, Derivation.leibniz_div, map_sub, map_add, Derivation.leibniz_pow, hd s h,
      Derivation.map_one_eq_zero]
    simp only [smul_eq_mul, nsmul_eq_mul]
    push_cast
    field_simp
    ring

theorem exD_ta (s t : String) (h : ("ta:" ++ t ≠ s) ∧ ("ta:" ++ t = "ta:" ++ s ↔ t = s) ∧ "ta:" ++ t ≠ "th:" ++ s ∧
    "ta:" ++ t ≠ "ex:" ++ s ∧ t ≠ "ta:" ++ s ∧ t ≠ "th:" ++ s ∧ t ≠ "ex:" ++ s) :
    exD s (gen ("ta:" ++ t)) = (1 + gen ("ta:" ++ t) ^ 2) / 2 * exD s (gen t) := by
  obtain ⟨h1, h2, h3, h4, h5, h6, h7⟩ := h
  rw [exD_var s t h5 h6 h7]
  unfold exD
  rw [mkD_gen, if_neg h1]
  by_cases e : t = s
  · rw [if_pos (h2.2 e), if_pos e.symm, mul_one]
  · rw [if_neg (fun h => e (h2.1 h)), if_neg h3, if_neg h4, if_neg (Ne.symm e), mul_zero]

theorem exD_th (s t : String) (h : ("th:" ++ t ≠ s) ∧ ("th:" ++ t = "th:" ++ s ↔ t = s) ∧ "th:" ++ t ≠ "ta:" ++ s ∧
    "th:" ++ t ≠ "ex:" ++ s ∧ t ≠ "ta:" ++ s ∧ t ≠ "th:" ++ s ∧ t ≠ "ex:" ++ s) :
    exD s (gen ("th:" ++ t)) = (1 - gen ("th:" ++ t) ^ 2) / 2 * exD s (gen t) := by
  obtain ⟨h1, h2, h3, h4, h5, h6, h7⟩ := h
  rw [exD_var s t h5 h6 h7]
  unfold exD
  rw [mkD_gen, if_neg h1, if_neg h3]
  by_cases e : t = s
  · rw [if_pos (h2.2 e), if_pos e.symm, mul_one]
  · rw [if_neg (fun h => e (h2.1 h)), if_neg h4, if_neg (Ne.symm e), mul_zero]

/-- strings on which the table of `exD` has no collisions -/
def okSyms (cs : List String) (t : String) : Prop := ∀ s ∈ cs, ("ta:" ++ t ≠ s) ∧ ("ta:" ++ t = "ta:" ++ s ↔ t = s) ∧
  "ta:" ++ t ≠ "th:" ++ s ∧ "ta:" ++ t ≠ "ex:" ++ s ∧ t ≠ "ta:" ++ s ∧ t ≠ "th:" ++ s ∧ t ≠ "ex:" ++ s ∧
  ("th:" ++ t ≠ s) ∧ ("th:" ++ t = "th:" ++ s ↔ t = s) ∧ "th:" ++ t ≠ "ta:" ++ s ∧ "th:" ++ t ≠ "ex:" ++ s

instance (cs : List String) (t : String) : Decidable (okSyms cs t) := by unfold okSyms; infer_instance

theorem exF_theta (cs : List String) (h : okSyms cs "theta" := by decide) : Trig exD exF cs "theta" := by
  have e : ¬ gen "theta" = gen "t" := fun e => absurd (gen_inj e) (by decide)
  refine trig_of (u := gen "ta:theta") (one_add_sq_ne "ta:theta") ?_ ?_ fun s hs => ?_
  · show 2 * (if gen "theta" = gen "t" then gen "ta:t" else gen "ta:theta") / (1 + (if gen "theta" = gen "t" then gen "ta:t"
      else gen "ta:theta") ^ 2) = _
    rw [if_neg e]
  · show (1 - (if gen "theta" = gen "t" then gen "ta:t" else gen "ta:theta") ^ 2) / (1 + (if gen "theta" = gen "t" then
      gen "ta:t" else gen "ta:theta") ^ 2) = _
    rw [if_neg e]
  · obtain ⟨h1, h2, h3, h4, h5, h6, h7, -⟩ := h s hs
    exact exD_ta s "theta" ⟨h1, h2, h3, h4, h5, h6, h7⟩

theorem exF_t (cs : List String) (h : okSyms cs "t" := by decide) : Trig exD exF cs "t" := by
  refine trig_of (u := gen "ta:t") (one_add_sq_ne "ta:t") ?_ ?_ fun s hs => ?_
  · show 2 * (if gen "t" = gen "t" then gen "ta:t" else gen "ta:theta") / (1 + (if gen "t" = gen "t" then gen "ta:t"
      else gen "ta:theta") ^ 2) = _
    rw [if_pos rfl]
  · show (1 - (if gen "t" = gen "t" then gen "ta:t" else gen "ta:theta") ^ 2) / (1 + (if gen "t" = gen "t" then
      gen "ta:t" else gen "ta:theta") ^ 2) = _
    rw [if_pos rfl]
  · obtain ⟨h1, h2, h3, h4, h5, h6, h7, -⟩ := h s hs
    exact exD_ta s "t" ⟨h1, h2, h3, h4, h5, h6, h7⟩

theorem exF_r (cs : List String) (h : okSyms cs "r" := by decide) : Hyp exD exF cs "r" := by
  refine hyp_of (u := gen "th:r") (one_sub_sq_ne "th:r") ?_ ?_ fun s hs => ?_
  · show 2 * (if gen "r" = gen "r" then gen "th:r" else gen "th:chi") / (1 - (if gen "r" = gen "r" then gen "th:r"
      else gen "th:chi") ^ 2) = _
    rw [if_pos rfl]
  · show (1 + (if gen "r" = gen "r" then gen "th:r" else gen "th:chi") ^ 2) / (1 - (if gen "r" = gen "r" then
      gen "th:r" else gen "th:chi") ^ 2) = _
    rw [if_pos rfl]
  · obtain ⟨-, -, -, -, h5, h6, h7, h8, h9, h10, h11⟩ := h s hs
    exact exD_th s "r" ⟨h8, h9, h10, h11, h5, h6, h7⟩

theorem exF_chi (cs : List String) (h : okSyms cs "chi" := by decide) : Hyp exD exF cs "chi" := by
  have e : ¬ gen "chi" = gen "r" := fun e => absurd (gen_inj e) (by decide)
  refine hyp_of (u := gen "th:chi") (one_sub_sq_ne "th:chi") ?_ ?_ fun s hs => ?_
  · show 2 * (if gen "chi" = gen "r" then gen "th:r" else gen "th:chi") / (1 - (if gen "chi" = gen "r" then gen "th:r"
      else gen "th:chi") ^ 2) = _
    rw [if_neg e]
  · show (1 + (if gen "chi" = gen "r" then gen "th:r" else gen "th:chi") ^ 2) / (1 - (if gen "chi" = gen "r" then
      gen "th:r" else gen "th:chi") ^ 2) = _
    rw [if_neg e]
  · obtain ⟨-, -, -, -, h5, h6, h7, h8, h9, h10, h11⟩ := h s hs
    exact exD_th s "chi" ⟨h8, h9, h10, h11, h5, h6, h7⟩

theorem exF_exp : ExpAt exD exF cart (2 * exF.var "x" / exF.var "alpha") := by
  have e : exF.exp (2 * exF.var "x" / exF.var "alpha") = gen "ex:x" := if_pos rfl
  have h2 : ∀ s, exD s (2:Rat0) = 0 := fun s => by
    have := Derivation.map_natCast (exD s) 2
    rwa [Nat.cast_ofNat] at this
  have ha := exF_const cart "alpha"
  have hx : ∀ s ∈ cart, exD s (gen "ex:x") = 2 / gen "alpha" * gen "ex:x" * exD s (gen "x") := by
    intro s hs
    have h1 : ∀ s ∈ cart, "ex:x" ≠ s ∧ "ex:x" ≠ "ta:" ++ s ∧ "ex:x" ≠ "th:" ++ s ∧ ("ex:x" = "ex:" ++ s ↔ s = "x") := by
      decide
    have h3 : ∀ s ∈ cart, "x" ≠ "ta:" ++ s ∧ "x" ≠ "th:" ++ s ∧ "x" ≠ "ex:" ++ s := by decide
    obtain ⟨h4, h5, h6⟩ := h3 s hs
    obtain ⟨h7, h8, h9, h10⟩ := h1 s hs
    rw [exD_var s "x" h4 h5 h6]
    unfold exD
    rw [mkD_gen, if_neg h7, if_neg h8, if_neg h9]
    by_cases hsx : s = "x"
    · rw [if_pos (h10.2 hsx), if_pos hsx, mul_one]
    · rw [if_neg (fun h => hsx (h10.1 h)), if_neg hsx, mul_zero]
  refine ⟨by rw [e]; exact gen_ne _, fun s hs => ?_⟩
  rw [e, hx s hs]
  show _ = gen "ex:x" * exD s (2 * gen "x" / gen "alpha")
  have a0 := gen_ne "alpha"
  rw [Derivation.leibniz_div, Derivation.leibniz, h2, ha s hs]
  simp only [smul_eq_mul]
  field_simp
  simp
  ring

/-- C62 applies: c and r_s independent symbols. -/
example : RicciIs exD (schwarzschild exF (gen "c") (gen "r_s")) fun _ _ => 0 :=
  C62_schwarzschild_vacuum _ _ (exF_coords sph) (exF_theta sph) (exF_const sph "c") (exF_const sph "r_s") (gen_ne "c")

/-- C63 applies. -/
example : RiemannVanishes exD (minkowskiPolar exF (gen "c")) ∧ RiemannVanishes exD (minkowskiCartesian (gen "c")) :=
  ⟨C63_polar_flat _ (exF_coords sph) (exF_theta sph) (exF_const sph "c") (gen_ne "c"),
    C63_cartesian_flat _ (exF_const cart "c") (gen_ne "c")⟩

/-- C64 applies. -/
example : (∃ g, Returns (antiDeSitterStatic exF) sph g ∧ RicciIs exD (antiDeSitterStatic exF) fun i j => -3 * g i j) ∧
    (∃ g, Returns (antiDeSitter exF) chiSph g ∧ RicciIs exD (antiDeSitter exF) fun i j => -3 * g i j) ∧
    ¬ ∃ (lam : Rat0) (g : Matrix (Fin 4) (Fin 4) Rat0), Returns (deSitter exF) cart g ∧
      RicciIs exD (deSitter exF) fun i j => lam * g i j := by
  refine ⟨⟨_, returns_diag _ _ _ _ sph "AntiDeSitterStaticMetric" rfl, ?_⟩, ⟨_, returns_diag _ _ _ _ chiSph
    "AntiDeSitterMetric" rfl, ?_⟩, ?_⟩
  · exact C64_antiDeSitterStatic (exF_coords sph) (exF_theta sph) (exF_r sph) (returns_diag _ _ _ _ sph _ rfl)
  · exact C64_antiDeSitter (exF_coords chiSph) (exF_theta chiSph) (exF_t chiSph) (exF_chi chiSph)
      (returns_diag _ _ _ _ chiSph _ rfl)
  · exact C64_refuted (exF_coords cart) (exF_const cart "alpha") (gen_ne "alpha") exF_exp

/-- C89 applies: mass, charge and constants independent symbols. -/
example : (∃ g, Returns (reissnerNordstorm exF (gen "c") (gen "G") (gen "eps_0") (gen "r_s") (gen "Q")) sph g ∧
    RicciIs exD (reissnerNordstorm exF (gen "c") (gen "G") (gen "eps_0") (gen "r_s") (gen "Q")) fun i j =>
      (if i = 0 ∨ i = 1 then 1 else -1) *
        (gen "c" ^ 2 * (gen "Q" ^ 2 * gen "G" / (4 * exF.pi * gen "eps_0" * gen "c" ^ 4)) / gen "r" ^ 4) * g i j) ∧
    ScalarIs exD (reissnerNordstorm exF (gen "c") (gen "G") (gen "eps_0") (gen "r_s") (gen "Q")) 0 :=
  ⟨⟨_, returns_diag _ _ _ _ sph _ rfl, C89_rn_ricci _ _ _ _ _ (exF_coords sph) (exF_theta sph) (exF_const sph "c")
    (exF_const sph "G") (exF_const sph "eps_0") (fun _ _ => mkD_real _ _) (exF_const sph "r_s") (exF_const sph "Q") (gen_ne "c")
    (returns_diag _ _ _ _ sph _ rfl)⟩,
  C89_rn_scalar _ _ _ _ _ (exF_coords sph) (exF_theta sph) (exF_const sph "c")
    (exF_const sph "G") (exF_const sph "eps_0") (fun _ _ => mkD_real _ _) (exF_const sph "r_s") (exF_const sph "Q") (gen_ne "c")⟩

/-- C91 applies. -/
example : RicciIs exD (barriolaVilekin exF (gen "c") (gen "k"))
    (Matrix.diagonal ![0, 0, 1 - gen "k" ^ 2, (1 - gen "k" ^ 2) * exF.sin (gen "theta") ^ 2]) :=
  C91_barriolaVilekin_ricci _ _ (exF_coords sph) (exF_theta sph) (exF_const sph "c") (exF_const sph "k") (gen_ne "c") (gen_ne "k")

/-- `exF` with sqrt 4 = 2 and exp(4ct) = `ex:t`. -/
def bkF : Fns Rat0 := { exF with sqrt := fun _ => 2, exp := fun _ => gen "ex:t" }

/-- C90 applies: λ = 4, c = 1/(2α). -/
example : ∃ g, Returns (bertottiKasner bkF (1 / (2 * gen "alpha")) 0 4) sph g ∧
    RicciIs exD (bertottiKasner bkF (1 / (2 * gen "alpha")) 0 4) fun i j => 4 * (1 / (2 * gen "alpha")) ^ 2 * g i j := by
  have a0 := gen_ne "alpha"
  have ha := exF_const sph "alpha"
  have hc : IsConst exD sph (1 / (2 * gen "alpha")) := by
    intro s hs
    rw [Derivation.leibniz_div, Derivation.leibniz, d_two, ha s hs, Derivation.map_one_eq_zero]; simp
  have hth := exF_theta sph
  refine ⟨_, returns_diag _ _ _ _ sph _ rfl, C90_bertottiKasner (F := bkF) _ _ 4 (exF_coords sph) ⟨hth.sq, hth.dsin, hth.dcos⟩ hc
    (fun s _ => d_two _) (show (2:Rat0) ^ 2 = 4 by norm_num) (one_div_ne_zero (mul_ne_zero two_ne_zero a0)) (by norm_num)
    ⟨gen_ne _, fun s hs => ?_⟩ (returns_diag _ _ _ _ sph _ rfl)⟩
  have h1 : ∀ s ∈ sph, "ex:t" ≠ s ∧ "ex:t" ≠ "ta:" ++ s ∧ "ex:t" ≠ "th:" ++ s ∧ ("ex:t" = "ex:" ++ s ↔ s = "t") := by
    decide
  have h3 : ∀ s ∈ sph, "t" ≠ "ta:" ++ s ∧ "t" ≠ "th:" ++ s ∧ "t" ≠ "ex:" ++ s := by decide
  obtain ⟨h4, h5, h6⟩ := h3 s hs
  obtain ⟨h7, h8, h9, h10⟩ := h1 s hs
  show exD s (gen "ex:t") = gen "ex:t" * exD s (2 * 2 * (1 / (2 * gen "alpha")) * gen "t")
  rw [Derivation.leibniz, Derivation.leibniz, Derivation.leibniz, d_two, hc s hs, exD_var s "t" h4 h5 h6]
  unfold exD
  rw [mkD_gen, if_neg h7, if_neg h8, if_neg h9]
  by_cases hsx : s = "t"
  · rw [if_pos (h10.2 hsx), if_pos hsx]
    simp
    field_simp
  · rw [if_neg (fun h => hsx (h10.1 h)), if_neg hsx]
    simp

/-- `exF` with ω = √2/α and exp(√2 ω x) = `ex:x`. -/
def godelF : Fns Rat0 := { exF with
  var := fun s => if s = "omega" then algebraMap ℝ Rat0 (Real.sqrt 2) / gen "alpha" else gen s
  sqrt := fun _ => algebraMap ℝ Rat0 (Real.sqrt 2)
  exp := fun z => if z = 2 * gen "x" / gen "alpha" then gen "ex:x" else gen "ex:x" ^ 2 }

/-- C92 applies. -/
example : ScalarIs exD (godel godelF) (-2 * (algebraMap ℝ Rat0 (Real.sqrt 2) / gen "alpha") ^ 2) ∧
    ∃ g, Returns (godel godelF) cart g ∧
      RicciIs exD (godel godelF) fun i j => 2 * (algebraMap ℝ Rat0 (Real.sqrt 2) / gen "alpha") ^ 2 * (g i 0 * g j 0) := by
  have a0 := gen_ne "alpha"
  have x0 := gen_ne "x"
  have ha := exF_const cart "alpha"
  have hq : algebraMap ℝ Rat0 (Real.sqrt 2) * algebraMap ℝ Rat0 (Real.sqrt 2) = 2 := by
    rw [← map_mul, Real.mul_self_sqrt (by norm_num)]
    exact map_ofNat _ 2
  have e1 : algebraMap ℝ Rat0 (Real.sqrt 2) * (algebraMap ℝ Rat0 (Real.sqrt 2) / gen "alpha") * gen "x" =
      2 * gen "x" / gen "alpha" := by rw [← hq]; ring
  have hE := exF_exp
  have L : GodelLaws exD godelF := by
    refine ⟨fun s hs t ht => ?_, ?_, fun s _ => mkD_real _ _, ?_, ⟨?_, fun s hs => ?_⟩, ?_⟩
    · have ht' : ∀ t ∈ cart, t ≠ "omega" := by decide
      show exD s (if t = "omega" then _ else gen t) = _
      rw [if_neg (ht' t ht)]
      exact exF_coords cart (by decide) s hs t ht
    · intro s hs
      show exD s (algebraMap ℝ Rat0 (Real.sqrt 2) / gen "alpha") = 0
      rw [Derivation.leibniz_div, ha s hs, show exD s (algebraMap ℝ Rat0 (Real.sqrt 2)) = 0 from mkD_real _ _]
      simp
    · show algebraMap ℝ Rat0 (Real.sqrt 2) ^ 2 = 2
      rw [pow_two, hq]
    · show (if _ then _ else _) ≠ (0:Rat0)
      by_cases h : godelF.sqrt 2 * godelF.var "omega" * godelF.var "x" = 2 * gen "x" / gen "alpha"
      · rw [if_pos h]; exact gen_ne _
      · rw [if_neg h]; exact pow_ne_zero 2 (gen_ne _)
    · have e2 : godelF.sqrt 2 * godelF.var "omega" * godelF.var "x" = 2 * gen "x" / gen "alpha" := e1
      rw [e2]
      have e3 : godelF.exp (2 * gen "x" / gen "alpha") = exF.exp (2 * exF.var "x" / exF.var "alpha") := by
        exact (if_pos rfl).trans (if_pos rfl).symm
      rw [e3]
      exact hE.d s hs
    · have e2 : godelF.sqrt 2 * godelF.var "omega" * godelF.var "x" = 2 * gen "x" / gen "alpha" := e1
      have e4 : 2 * godelF.sqrt 2 * godelF.var "omega" * godelF.var "x" = 2 * (2 * gen "x" / gen "alpha") := by
        rw [← e2]; ring
      rw [e2, e4]
      show (if _ then _ else _) = (if _ then _ else _) ^ 2
      rw [if_pos rfl, if_neg]
      intro h
      field_simp at h
      norm_num at h
  exact ⟨C92_godel_scalar L, _, returns_sym02 _ _ _ _ _ cart _ rfl, (C92_godel_ricci L (returns_sym02 _ _ _ _ _ cart _ rfl)).2⟩

/-- C93 applies. -/
example : ScalarIs exD (ernst exF (gen "B") (gen "M")) 0 :=
  C93_ernst_scalar _ _ (exF_coords sph) (exF_theta sph) (exF_const sph "B") (exF_const sph "M")

/-- Derivatives for the Davidson metric: generators `E` = (1+r²)^(2/5), `T` = t^(4/3), `S` = t^(−2/3). -/
def davD (s : String) : Derivation ℚ Rat0 Rat0 := mkD fun g =>
  if g = s then 1 else if s = "r" ∧ g = "E" then 2 / 5 * gen "E" / (1 + gen "r" ^ 2) * (2 * gen "r")
  else if s = "t" ∧ g = "T" then 4 / 3 * gen "T" / gen "t" else if s = "t" ∧ g = "S" then -2 / 3 * gen "S" / gen "t" else 0

/-- The functions of the Davidson metric. -/
def davF : Fns Rat0 := { exF with
  pow := fun x y => if y = 2 / 5 then gen "E" else if y = 4 / 3 then gen "T" else gen "S" }

/-- C94 applies. -/
example : ScalarIs davD (davidson davF) 0 ∧ ∃ g, Returns (davidson davF) cyl g ∧
    RicciIs davD (davidson davF) fun i j => (if i = 0 then -3 else 1) *
      (4 / (5 * (1 + gen "r" ^ 2) ^ 2 * davF.pow (gen "t") (4 / 3) * davF.pow (1 + gen "r" ^ 2) (2 / 5))) * g i j := by
  have hv : ∀ s ∈ cyl, ∀ t ∈ cyl, davD s (gen t) = if s = t then 1 else 0 := by
    have h : ∀ s ∈ cyl, ∀ t ∈ cyl, t ≠ "E" ∧ t ≠ "T" ∧ t ≠ "S" := by decide
    intro s hs t ht
    obtain ⟨h1, h2, h3⟩ := h s hs t ht
    unfold davD
    rw [mkD_gen]
    by_cases e : t = s
    · rw [if_pos e, if_pos e.symm]
    · rw [if_neg e, if_neg (fun h => h1 h.2), if_neg (fun h => h2 h.2), if_neg (fun h => h3 h.2), if_neg (Ne.symm e)]
  have hE : davF.pow (1 + davF.var "r" ^ 2) (2 / 5) = gen "E" := if_pos rfl
  have hT : davF.pow (davF.var "t") (4 / 3) = gen "T" := (if_neg (by norm_num)).trans (if_pos rfl)
  have hS : davF.pow (davF.var "t") (-2 / 3) = gen "S" := (if_neg (by norm_num)).trans (if_neg (by norm_num))
  have hm : ∀ s ∈ cyl, "E" ≠ s ∧ "T" ≠ s ∧ "S" ≠ s := by decide
  have L : DavidsonLaws davD davF := by
    refine ⟨hv, ⟨by rw [hE]; exact gen_ne _, fun s hs => ?_⟩, ⟨by rw [hT]; exact gen_ne _, fun s hs => ?_⟩,
      ⟨by rw [hS]; exact gen_ne _, fun s hs => ?_⟩⟩
    · rw [hE, map_add, Derivation.leibniz_pow, Derivation.map_one_eq_zero]
      show davD s (gen "E") = 2 / 5 * gen "E" / (1 + gen "r" ^ 2) * (0 + 2 • gen "r" ^ (2 - 1) • davD s (gen "r"))
      rw [hv s hs "r" (by decide)]
      unfold davD
      rw [mkD_gen, if_neg (hm s hs).1]
      by_cases e : s = "r"
      · rw [if_pos ⟨e, rfl⟩, if_pos e]; simp
      · rw [if_neg (fun h => e h.1), if_neg e, if_neg (fun h => absurd h.2 (by decide)), if_neg (fun h => absurd h.2 (by decide))]; simp
    · rw [hT]
      show davD s (gen "T") = 4 / 3 * gen "T" / gen "t" * davD s (gen "t")
      rw [hv s hs "t" (by decide)]
      unfold davD
      rw [mkD_gen, if_neg (hm s hs).2.1, if_neg (fun h => absurd h.2 (by decide))]
      by_cases e : s = "t"
      · rw [if_pos ⟨e, rfl⟩, if_pos e, mul_one]
      · rw [if_neg (fun h => e h.1), if_neg e, if_neg (fun h => absurd h.2 (by decide)), mul_zero]
    · rw [hS]
      show davD s (gen "S") = -2 / 3 * gen "S" / gen "t" * davD s (gen "t")
      rw [hv s hs "t" (by decide)]
      unfold davD
      rw [mkD_gen, if_neg (hm s hs).2.2, if_neg (fun h => absurd h.2 (by decide)), if_neg (fun h => absurd h.2 (by decide))]
      by_cases e : s = "t"
      · rw [if_pos ⟨e, rfl⟩, if_pos e, mul_one]
      · rw [if_neg (fun h => e h.1), if_neg e, mul_zero]
  exact ⟨C94_davidson_scalar L, _, returns_diag _ _ _ _ cyl _ rfl, C94_davidson_ricci L (returns_diag _ _ _ _ cyl _ rfl)⟩

/-- C95 applies. -/
example : RicciIs exD (kerr exF (gen "c") (gen "r_s") (gen "a")) fun _ _ => 0 :=
  C95_kerr_vacuum _ _ _ (exF_coords sph) (exF_theta sph) (exF_const sph "c") (exF_const sph "r_s") (exF_const sph "a") (gen_ne "c")

/-- C96 applies. -/
example : ScalarIs exD (kerrNewman exF (gen "c") (gen "G") (gen "eps_0") (gen "r_s") (gen "a") (gen "Q")) 0 :=
  C96_kerrNewman_scalar _ _ _ _ _ _ (exF_coords sph) (exF_theta sph) (exF_const sph "c") (exF_const sph "G")
    (exF_const sph "eps_0") (fun _ _ => mkD_real _ _) (exF_const sph "r_s") (exF_const sph "a") (exF_const sph "Q") (gen_ne "c")

/-- `exF` with f(z) = z³ + 1 and h(z) = z³ − 1. -/
def cmF : Fns Rat0 := { exF with fn := fun name z => if name = "f" then z ^ 3 + 1 else z ^ 3 - 1 }

/-- z³ + k and its derivatives. -/
def cubic (z k : Rat0) : ℕ → Rat0
  | 0 => z ^ 3 + k
  | 1 => 3 * z ^ 2
  | 2 => 6 * z
  | 3 => 6
  | _ => 0

theorem cubic_fn {t : String} {k : ℚ} (ht : t ∈ cmc) (hv : cmF.fn name (gen t) = gen t ^ 3 + algebraMap ℚ Rat0 k) :
    FnOf exD cmF cmc name t (cubic (gen t) (algebraMap ℚ Rat0 k)) := by
  have hco := exF_coords cmc (by decide)
  have d3 : ∀ s, exD s (3:Rat0) = 0 := fun s => by
    have := Derivation.map_natCast (exD s) 3
    rwa [Nat.cast_ofNat] at this
  have d6 : ∀ s, exD s (6:Rat0) = 0 := fun s => by
    have := Derivation.map_natCast (exD s) 6
    rwa [Nat.cast_ofNat] at this
  have hd : ∀ n, ∀ s ∈ cmc, exD s (cubic (gen t) (algebraMap ℚ Rat0 k) n) =
      cubic (gen t) (algebraMap ℚ Rat0 k) (n + 1) * exD s (gen t) := by
    intro n s hs
    match n with
    | 0 => show exD s (gen t ^ 3 + _) = 3 * gen t ^ 2 * _
           rw [map_add, Derivation.map_algebraMap, Derivation.leibniz_pow]; simp; ring
    | 1 => show exD s (3 * gen t ^ 2) = 6 * gen t * _
           rw [Derivation.leibniz, d3, Derivation.leibniz_pow]; simp; ring
    | 2 => show exD s (6 * gen t) = 6 * _
           rw [Derivation.leibniz, d6]; simp
    | 3 => show exD s 6 = 0 * _
           rw [d6, zero_mul]
    | n + 4 => show exD s 0 = 0 * _
               rw [map_zero, zero_mul]
  refine ⟨hv, hd, fun e => ?_⟩
  have h1 := hd 0 t ht
  rw [e, map_zero, show exD t (gen t) = 1 from (hco t ht t ht).trans (if_pos rfl)] at h1
  exact mul_ne_zero three_ne_zero (pow_ne_zero 2 (gen_ne t)) ((mul_one _).symm.trans h1.symm)

/-- C101 applies, and this C-metric is a vacuum solution. -/
example : RicciIs exD (cMetric cmF) fun _ _ => 0 := by
  have h1 : FnOf exD cmF cmc "f" "x" (cubic (gen "x") (algebraMap ℚ Rat0 1)) :=
    cubic_fn (by decide) (by rw [map_one]; show (if "f" = "f" then gen "x" ^ 3 + 1 else gen "x" ^ 3 - 1) = _; rw [if_pos rfl])
  have h2 : FnOf exD cmF cmc "h" "y" (cubic (gen "y") (algebraMap ℚ Rat0 (-1))) :=
    cubic_fn (by decide) (by
      rw [map_neg, map_one, ← sub_eq_add_neg]; show (if "h" = "f" then gen "y" ^ 3 + 1 else gen "y" ^ 3 - 1) = _; rw [if_neg (by decide)])
  refine (C101_vacuum_iff (F := cmF) (exF_coords cmc (by decide)) h1 h2).2 ⟨1, 0, 0, 1, fun s _ => (exD s).map_one_eq_zero, const_zero,
    const_zero, fun s _ => (exD s).map_one_eq_zero, ?_, ?_⟩
  · rw [h1.val]; show gen "x" ^ 3 + algebraMap ℚ Rat0 1 = _ + _ * gen "x" + _ * gen "x" ^ 2 + _ * gen "x" ^ 3
    rw [map_one]; ring
  · rw [h2.val]; show gen "y" ^ 3 + algebraMap ℚ Rat0 (-1) = -(_ + _ * -gen "y" + _ * (-gen "y") ^ 2 + _ * (-gen "y") ^ 3)
    rw [map_neg, map_one]; ring

end
end Einpy.Predef
