import Mathlib.Analysis.SpecialFunctions.Trigonometric.Bounds
import Verif.Num.SchTab
import Verif.Num.Norm

/-!
# Properties C41 - C50 of the numeric metrics, and more about them
-/

set_option linter.unusedSimpArgs false
set_option linter.unusedVariables false

namespace Einpy.Num
open Classical Topology

variable (k : PhysConst)

/-! ## C41 -/

/-- **C41**: the spin length is returned exactly for dimensionless spins between 0 and 1. -/
theorem C41_alpha_ok (M a v : ℝ) :
    alpha k M a = .ok v ↔ 0 ≤ a ∧ a ≤ 1 ∧ v = k.G * M * a / k.c ^ 2 := by
  rw [alpha_eq]
  split_ifs with h
  · constructor
    · intro e; refine ⟨h.1, h.2, ?_⟩; rw [← Except.ok.inj e]; unfold alF; ring
    · rintro ⟨_, _, rfl⟩; refine congrArg Except.ok ?_; unfold alF; ring
  · constructor
    · intro e; cases e
    · rintro ⟨h1, h2, _⟩; exact absurd ⟨h1, h2⟩ h

theorem C41_alpha_error (M a : ℝ) (e : PyErr) :
    alpha k M a = .error e ↔ e = .valueError ∧ (a < 0 ∨ 1 < a) := by
  rw [alpha_eq]
  split_ifs with h
  · constructor
    · intro e; cases e
    · rintro ⟨_, h1 | h1⟩
      · exact absurd h.1 (not_le.mpr h1)
      · exact absurd h.2 (not_le.mpr h1)
  · constructor
    · intro h1; refine ⟨(Except.error.inj h1).symm, ?_⟩
      rw [not_and_or] at h; push Not at h; exact h
    · rintro ⟨rfl, _⟩; rfl

/-! ## C42 -/

/-- **C42**: wherever the Christoffel symbols of Schwarzschild are computed they are those of the metric the object
returns around that point. -/
theorem C42_schwarzschild_levi_civita {M : ℝ} {x : Vec4} {Γ : Tab3}
    (h : Schwarzschild.christoffels k (Schwarzschild.new k "Spherical" M) x = .ok Γ) :
    ∃ G, ReturnsNear (Schwarzschild.metricCovariant k (Schwarzschild.new k "Spherical" M)) G x ∧ IsLeviCivita G x Γ := by
  rw [sch_christoffels] at h
  split_ifs at h with hc
  push Not at hc
  obtain ⟨h1, h2, h3⟩ := hc
  have h4 := (sch_conds h1).mp h2
  refine ⟨_, sch_near k h1 h4, _, _, schT_hasPartials k.c (schwarzschildRadius k M) h1 h4,
    schI_mul k.c_pos.ne' h1 h4 h3, ?_⟩
  rw [← Except.ok.inj h]
  exact schChl_eq k.c_pos.ne' h1 h2 h3

/-- They are computed at every point off the origin, the horizon and the axis. -/
theorem C42_schwarzschild_total (M : ℝ) (x : Vec4) :
    (∃ Γ, Schwarzschild.christoffels k (Schwarzschild.new k "Spherical" M) x = .ok Γ) ↔
      x 1 ≠ 0 ∧ x 1 ≠ 2 * k.G * M / k.c ^ 2 ∧ Real.sin (x 2) ≠ 0 := by
  rw [sch_christoffels]
  have e : schwarzschildRadius k M * x 1 - x 1 ^ 2 = 0 ↔ x 1 = 0 ∨ x 1 = 2 * k.G * M / k.c ^ 2 := by
    rw [show schwarzschildRadius k M * x 1 - x 1 ^ 2 = x 1 * (schwarzschildRadius k M - x 1) by ring, mul_eq_zero,
      sub_eq_zero]
    exact or_congr_right eq_comm
  split_ifs with h
  · constructor
    · rintro ⟨_, h⟩; cases h
    · rintro ⟨h1, h2, h3⟩
      rw [e] at h; tauto
  · rw [e] at h
    push Not at h
    exact ⟨fun _ => ⟨h.1, h.2.1.2, h.2.2⟩, fun _ => ⟨_, rfl⟩⟩

/-! ## C43 -/

theorem partials_unique {G₁ G₂ : Vec4 → Mat4} {d₁ d₂ : Tab3} {x : Vec4} (h : ∀ᶠ y in 𝓝 x, G₁ y = G₂ y)
    (h₁ : HasPartials G₁ d₁ x) (h₂ : HasPartials G₂ d₂ x) : d₁ = d₂ := by
  funext l i j
  have c : ContinuousAt (fun s => Function.update x l s) (x l) :=
    (continuous_const.update l continuous_id).continuousAt
  have : ∀ᶠ s in 𝓝 (x l), G₁ (Function.update x l s) = G₂ (Function.update x l s) := by
    have := c.eventually (p := fun y => G₁ y = G₂ y) (by show ∀ᶠ y in 𝓝 (Function.update x l (x l)), _; rw [Function.update_eq_self]; exact h)
    exact this
  refine (h₁ l i j).unique ((h₂ l i j).congr_of_eventuallyEq ?_)
  filter_upwards [this] with s hs
  rw [hs]

theorem lc_unique {G₁ G₂ : Vec4 → Mat4} {Γ₁ Γ₂ : Tab3} {x : Vec4} (h : ∀ᶠ y in 𝓝 x, G₁ y = G₂ y)
    (h₁ : IsLeviCivita G₁ x Γ₁) (h₂ : IsLeviCivita G₂ x Γ₂) : Γ₁ = Γ₂ := by
  obtain ⟨d₁, i₁, p₁, m₁, e₁⟩ := h₁
  obtain ⟨d₂, i₂, p₂, m₂, e₂⟩ := h₂
  have hd := partials_unique h p₁ p₂
  have hx : G₁ x = G₂ x := h.self_of_nhds
  have hi : i₁ = i₂ := by
    rw [hx] at m₁
    exact (Matrix.inv_eq_left_inv m₁).symm.trans (Matrix.inv_eq_left_inv m₂)
  funext i j l
  rw [e₁, e₂, hd, hi]

theorem lc_congr {G₁ G₂ : Vec4 → Mat4} {Γ : Tab3} {x : Vec4} (h : ∀ᶠ y in 𝓝 x, G₁ y = G₂ y)
    (h₁ : IsLeviCivita G₁ x Γ) : IsLeviCivita G₂ x Γ := by
  obtain ⟨dG, Gi, p, m, e⟩ := h₁
  refine ⟨dG, Gi, ?_, ?_, e⟩
  · intro l i j
    refine (p l i j).congr_of_eventuallyEq ?_
    have c : ContinuousAt (fun s => Function.update x l s) (x l) :=
      (continuous_const.update l continuous_id).continuousAt
    have := c.eventually (p := fun y => G₁ y = G₂ y)
      (by show ∀ᶠ y in 𝓝 (Function.update x l (x l)), _; rw [Function.update_eq_self]; exact h)
    filter_upwards [this] with s hs
    rw [← hs]
  · rw [← h.self_of_nhds]; exact m

theorem returnsNear_unique {α : Type} {f : Vec4 → Py α} {G₁ G₂ : Vec4 → α} {x : Vec4} (h₁ : ReturnsNear f G₁ x)
    (h₂ : ReturnsNear f G₂ x) : ∀ᶠ y in 𝓝 x, G₁ y = G₂ y := by
  filter_upwards [h₁, h₂] with y a b
  exact Except.ok.inj (a.symm.trans b)

theorem cont_sigF (al : ℝ) (x : Vec4) : ContinuousAt (fun y : Vec4 => sigF al (y 1) (y 2)) x := by
  unfold sigF; fun_prop

theorem cont_delF (rs al : ℝ) (x : Vec4) : ContinuousAt (fun y : Vec4 => delF rs al (y 1)) x := by
  unfold delF; fun_prop

theorem kerr_near {M a : ℝ} {x : Vec4} (ha : 0 ≤ a ∧ a ≤ 1) (hs : sigF (alF k M a) (x 1) (x 2) ≠ 0)
    (hd : delF (schwarzschildRadius k M) (alF k M a) (x 1) ≠ 0) :
    ReturnsNear (Kerr.metricCovariant k (Kerr.new k "BoyerLindquist" M a))
      (fun y => kerrT k.c (schwarzschildRadius k M) (alF k M a) (y 1) (y 2)) x := by
  filter_upwards [(cont_sigF _ x).eventually_ne hs, (cont_delF _ _ x).eventually_ne hd] with y h1 h2
  rw [kerr_metric, if_pos ha, if_neg (by push Not; exact ⟨h1, h2⟩)]

theorem kerr_dgdx_ok {s : String} {M a : ℝ} {x : Vec4} {d : Tab3} (h : Kerr.dgdxBl k (Kerr.new k s M a) x = .ok d) :
    (0 ≤ a ∧ a ≤ 1) ∧ sigF (alF k M a) (x 1) (x 2) ≠ 0 ∧ delF (schwarzschildRadius k M) (alF k M a) (x 1) ≠ 0 ∧
      d = tabRT (kerrRcode k.c (schwarzschildRadius k M) (alF k M a) (x 1) (x 2))
          (kerrTh k.c (schwarzschildRadius k M) (alF k M a) (x 1) (x 2)) := by
  rw [kerr_dgdx] at h
  split_ifs at h with h1 h2
  push Not at h2
  exact ⟨h1, h2.1, h2.2, (Except.ok.inj h).symm⟩

theorem kerrRcode_eq (c rs al r th : ℝ) : ∀ i j : Fin 4, (i, j) ≠ (3, 3) → kerrRcode c rs al r th i j = kerrR c rs al r th i j := by
  unfold kerrRcode kerrR
  refine fin4_cases (fin4_cases ?_ ?_ ?_ ?_) (fin4_cases ?_ ?_ ?_ ?_) (fin4_cases ?_ ?_ ?_ ?_) (fin4_cases ?_ ?_ ?_ ?_) <;>
    intro h
  all_goals first
    | exact absurd rfl h
    | simp only [axi00, axi01, axi02, axi03, axi10, axi11, axi12, axi13, axi20, axi21, axi22, axi23, axi30, axi31, axi32]

/-- **C43 (part)**: the table returned by `_dg_dx` of Kerr holds the partial derivatives of the metric returned around
that point, with the exception of one entry, `∂_r g_φφ`. -/
theorem C43_kerr_derivatives_partial {M a : ℝ} {x : Vec4} {d : Tab3}
    (h : Kerr.dgdxBl k (Kerr.new k "BoyerLindquist" M a) x = .ok d) :
    ∃ G dG, ReturnsNear (Kerr.metricCovariant k (Kerr.new k "BoyerLindquist" M a)) G x ∧ HasPartials G dG x ∧
      ∀ l i j, (l, i, j) ≠ (1, 3, 3) → d l i j = dG l i j := by
  obtain ⟨ha, hs, hd, rfl⟩ := kerr_dgdx_ok k h
  refine ⟨_, _, kerr_near k ha hs hd, kerrT_hasPartials k.c _ _ hs hd, ?_⟩
  intro l i j
  revert l
  refine fin4_cases (fun _ => by rw [tabRT0, tabRT0]) ?_ (fun _ => by rw [tabRT2, tabRT2]) (fun _ => by rw [tabRT3, tabRT3])
  intro h
  rw [tabRT1, tabRT1]
  exact kerrRcode_eq _ _ _ _ _ i j (fun e => h (by rw [Prod.mk.injEq] at e; rw [e.1, e.2]))

/-- **C43 is false of this commit**: `∂_r g_φφ` is wrong by `2 α² sin⁴θ r_s (Σ - 2r²)/Σ²` (kerr.py:202-206 has a `+` where
the derivative has a `-`). -/
theorem C43_refuted_error_term {M a : ℝ} {x : Vec4} {d : Tab3} {G : Vec4 → Mat4} {dG : Tab3}
    (h : Kerr.dgdxBl k (Kerr.new k "BoyerLindquist" M a) x = .ok d)
    (hG : ReturnsNear (Kerr.metricCovariant k (Kerr.new k "BoyerLindquist" M a)) G x) (hd : HasPartials G dG x) :
    ∃ al S, alpha k M a = .ok al ∧ sigma k (x 1) (x 2) M a = .ok S ∧ S ≠ 0 ∧
    d 1 3 3 - dG 1 3 3 =
      2 * al ^ 2 * Real.sin (x 2) ^ 4 * ((2 * k.G * M / k.c ^ 2) * (S - 2 * x 1 ^ 2) / S ^ 2) := by
  obtain ⟨ha, hs, hdl, rfl⟩ := kerr_dgdx_ok k h
  have := partials_unique (returnsNear_unique (kerr_near k ha hs hdl) hG) (kerrT_hasPartials k.c _ _ hs hdl) hd
  subst this
  refine ⟨_, _, alpha_ok k ha, sigma_ok k ha _ _, hs, ?_⟩
  show (-2 * x 1 + (alF k M a * Real.sin (x 2)) ^ 2 * tmpF _ _ _ _) * Real.sin (x 2) ^ 2
    - -((2 * x 1 + (alF k M a * Real.sin (x 2)) ^ 2 * tmpF _ _ _ _) * Real.sin (x 2) ^ 2) = _
  unfold tmpF
  rw [show 2 * k.G * M / k.c ^ 2 = schwarzschildRadius k M from rfl]
  ring

/-! ## C44 -/

theorem chSym_symm (gc : Mat4) (dg : Tab3) : ∀ i j l, chSymLoops gc dg i j l = chSymLoops gc dg i l j := by
  rw [chSymLoops_closed]
  intro i j l
  fin_cases i <;> fin_cases j <;> fin_cases l <;> rfl

/-- **C44 (part)**: the symbols are symmetric in the lower indices. -/
theorem C44_kerr_symmetric {M a : ℝ} {x : Vec4} {Γ : Tab3}
    (h : Kerr.christoffels k (Kerr.new k "BoyerLindquist" M a) x = .ok Γ) (i j l : Fin 4) : Γ i j l = Γ i l j := by
  obtain ⟨_, rfl⟩ := (kerr_christoffels_iff k).mp h
  exact chSym_symm _ _ i j l

theorem chSym_zero (gc : Mat4) (dg : Tab3) : ∀ i j l, (i, j, l) ∉ nonzeroListBl → chSymLoops gc dg i j l = 0 := by
  rw [chSymLoops_closed]
  intro i j l
  fin_cases i <;> fin_cases j <;> fin_cases l <;> first | exact fun h => absurd (by decide) h | exact fun _ => rfl

/-- Every symbol that is nonzero is in the advertised list. -/
theorem C44_kerr_nonzero_listed {M a : ℝ} {x : Vec4} {Γ : Tab3}
    (h : Kerr.christoffels k (Kerr.new k "BoyerLindquist" M a) x = .ok Γ) (i j l : Fin 4) (hn : Γ i j l ≠ 0) :
    (i, j, l) ∈ nonzeroListBl := by
  obtain ⟨_, rfl⟩ := (kerr_christoffels_iff k).mp h
  by_contra hc
  exact hn (chSym_zero _ _ i j l hc)

/-- The list recomputed by `nonzero_christoffels()` is the precomputed one up to order. -/
theorem C44_nonzero_christoffels_perm :
    nonzeroChristoffels.Perm (nonzeroListBl.map fun t => (t.1.val, t.2.1.val, t.2.2.val)) := by decide

theorem kerr_lc {M a : ℝ} {x : Vec4} (h : Reg k M a x) :
    IsLeviCivita (fun y => kerrT k.c (schwarzschildRadius k M) (alF k M a) (y 1) (y 2)) x
      (chSymLoops (kerrI k.c (schwarzschildRadius k M) (alF k M a) (x 1) (x 2))
        (tabRT (kerrR k.c (schwarzschildRadius k M) (alF k M a) (x 1) (x 2))
          (kerrTh k.c (schwarzschildRadius k M) (alF k M a) (x 1) (x 2)))) :=
  ⟨_, _, kerrT_hasPartials k.c _ _ h.2.1 h.2.2.1, kerrI_mul k.c_pos.ne' h.2.1 h.2.2.1 h.2.2.2,
    chSymLoops_eq _ _ _ _ _ _ _ _ _ _ _ _ _ _ _⟩

/-- The positions of the Kerr symbols that involve `∂_r g_φφ`. -/
def kerrBad : List (Fin 4 × Fin 4 × Fin 4) := [(0, 1, 3), (0, 3, 1), (3, 1, 3), (3, 3, 1), (1, 3, 3)]

theorem chSym_good (gc : Mat4) {P P' T : Mat4} (h : ∀ i j : Fin 4, (i, j) ≠ (3, 3) → P i j = P' i j) :
    ∀ i j l, (i, j, l) ∉ kerrBad → chSymLoops gc (tabRT P T) i j l = chSymLoops gc (tabRT P' T) i j l := by
  have e00 := h 0 0 (by decide)
  have e01 := h 0 1 (by decide)
  have e02 := h 0 2 (by decide)
  have e03 := h 0 3 (by decide)
  have e10 := h 1 0 (by decide)
  have e11 := h 1 1 (by decide)
  have e12 := h 1 2 (by decide)
  have e13 := h 1 3 (by decide)
  have e20 := h 2 0 (by decide)
  have e21 := h 2 1 (by decide)
  have e22 := h 2 2 (by decide)
  have e23 := h 2 3 (by decide)
  have e30 := h 3 0 (by decide)
  have e31 := h 3 1 (by decide)
  have e32 := h 3 2 (by decide)
  simp only [chSymLoops_closed]
  refine fin4_cases (fin4_cases (fin4_cases ?_ ?_ ?_ ?_) (fin4_cases ?_ ?_ ?_ ?_) (fin4_cases ?_ ?_ ?_ ?_) (fin4_cases ?_ ?_ ?_ ?_)) (fin4_cases (fin4_cases ?_ ?_ ?_ ?_) (fin4_cases ?_ ?_ ?_ ?_) (fin4_cases ?_ ?_ ?_ ?_) (fin4_cases ?_ ?_ ?_ ?_)) (fin4_cases (fin4_cases ?_ ?_ ?_ ?_) (fin4_cases ?_ ?_ ?_ ?_) (fin4_cases ?_ ?_ ?_ ?_) (fin4_cases ?_ ?_ ?_ ?_)) (fin4_cases (fin4_cases ?_ ?_ ?_ ?_) (fin4_cases ?_ ?_ ?_ ?_) (fin4_cases ?_ ?_ ?_ ?_) (fin4_cases ?_ ?_ ?_ ?_))
  · exact fun _ => Eq.trans (show _ = (0 : ℝ) from rfl) (show (0 : ℝ) = _ from rfl)
  · refine fun _ => Eq.trans (show _ = 0.5 * (gc 0 0 * (tabRT P T 1 0 0 + tabRT P T 0 0 1) + gc 0 3 * (tabRT P T 1 3 0 + tabRT P T 0 3 1)) from rfl) (Eq.trans ?_ (show 0.5 * (gc 0 0 * (tabRT P' T 1 0 0 + tabRT P' T 0 0 1) + gc 0 3 * (tabRT P' T 1 3 0 + tabRT P' T 0 3 1)) = _ from rfl))
    simp only [tabRT0, tabRT1, tabRT2, tabRT3, e00, e01, e02, e03, e10, e11, e12, e13, e20, e21, e22, e23, e30, e31, e32]
  · refine fun _ => Eq.trans (show _ = 0.5 * (gc 0 0 * (tabRT P T 2 0 0 + tabRT P T 0 0 2) + gc 0 3 * (tabRT P T 2 3 0 + tabRT P T 0 3 2)) from rfl) (Eq.trans ?_ (show 0.5 * (gc 0 0 * (tabRT P' T 2 0 0 + tabRT P' T 0 0 2) + gc 0 3 * (tabRT P' T 2 3 0 + tabRT P' T 0 3 2)) = _ from rfl))
    simp only [tabRT0, tabRT1, tabRT2, tabRT3, e00, e01, e02, e03, e10, e11, e12, e13, e20, e21, e22, e23, e30, e31, e32]
  · exact fun _ => Eq.trans (show _ = (0 : ℝ) from rfl) (show (0 : ℝ) = _ from rfl)
  · refine fun _ => Eq.trans (show _ = 0.5 * (gc 0 0 * (tabRT P T 1 0 0 + tabRT P T 0 0 1) + gc 0 3 * (tabRT P T 1 3 0 + tabRT P T 0 3 1)) from rfl) (Eq.trans ?_ (show 0.5 * (gc 0 0 * (tabRT P' T 1 0 0 + tabRT P' T 0 0 1) + gc 0 3 * (tabRT P' T 1 3 0 + tabRT P' T 0 3 1)) = _ from rfl))
    simp only [tabRT0, tabRT1, tabRT2, tabRT3, e00, e01, e02, e03, e10, e11, e12, e13, e20, e21, e22, e23, e30, e31, e32]
  · exact fun _ => Eq.trans (show _ = (0 : ℝ) from rfl) (show (0 : ℝ) = _ from rfl)
  · exact fun _ => Eq.trans (show _ = (0 : ℝ) from rfl) (show (0 : ℝ) = _ from rfl)
  · exact fun h => absurd (by decide) h
  · refine fun _ => Eq.trans (show _ = 0.5 * (gc 0 0 * (tabRT P T 2 0 0 + tabRT P T 0 0 2) + gc 0 3 * (tabRT P T 2 3 0 + tabRT P T 0 3 2)) from rfl) (Eq.trans ?_ (show 0.5 * (gc 0 0 * (tabRT P' T 2 0 0 + tabRT P' T 0 0 2) + gc 0 3 * (tabRT P' T 2 3 0 + tabRT P' T 0 3 2)) = _ from rfl))
    simp only [tabRT0, tabRT1, tabRT2, tabRT3, e00, e01, e02, e03, e10, e11, e12, e13, e20, e21, e22, e23, e30, e31, e32]
  · exact fun _ => Eq.trans (show _ = (0 : ℝ) from rfl) (show (0 : ℝ) = _ from rfl)
  · exact fun _ => Eq.trans (show _ = (0 : ℝ) from rfl) (show (0 : ℝ) = _ from rfl)
  · refine fun _ => Eq.trans (show _ = 0.5 * (gc 0 0 * (tabRT P T 3 0 2 + tabRT P T 2 0 3) + gc 0 3 * (tabRT P T 3 3 2 + tabRT P T 2 3 3)) from rfl) (Eq.trans ?_ (show 0.5 * (gc 0 0 * (tabRT P' T 3 0 2 + tabRT P' T 2 0 3) + gc 0 3 * (tabRT P' T 3 3 2 + tabRT P' T 2 3 3)) = _ from rfl))
    simp only [tabRT0, tabRT1, tabRT2, tabRT3, e00, e01, e02, e03, e10, e11, e12, e13, e20, e21, e22, e23, e30, e31, e32]
  · exact fun _ => Eq.trans (show _ = (0 : ℝ) from rfl) (show (0 : ℝ) = _ from rfl)
  · exact fun h => absurd (by decide) h
  · refine fun _ => Eq.trans (show _ = 0.5 * (gc 0 0 * (tabRT P T 3 0 2 + tabRT P T 2 0 3) + gc 0 3 * (tabRT P T 3 3 2 + tabRT P T 2 3 3)) from rfl) (Eq.trans ?_ (show 0.5 * (gc 0 0 * (tabRT P' T 3 0 2 + tabRT P' T 2 0 3) + gc 0 3 * (tabRT P' T 3 3 2 + tabRT P' T 2 3 3)) = _ from rfl))
    simp only [tabRT0, tabRT1, tabRT2, tabRT3, e00, e01, e02, e03, e10, e11, e12, e13, e20, e21, e22, e23, e30, e31, e32]
  · exact fun _ => Eq.trans (show _ = (0 : ℝ) from rfl) (show (0 : ℝ) = _ from rfl)
  · refine fun _ => Eq.trans (show _ = 0.5 * (gc 1 1 * (tabRT P T 0 1 0 + tabRT P T 0 1 0 - tabRT P T 1 0 0)) from rfl) (Eq.trans ?_ (show 0.5 * (gc 1 1 * (tabRT P' T 0 1 0 + tabRT P' T 0 1 0 - tabRT P' T 1 0 0)) = _ from rfl))
    simp only [tabRT0, tabRT1, tabRT2, tabRT3, e00, e01, e02, e03, e10, e11, e12, e13, e20, e21, e22, e23, e30, e31, e32]
  · exact fun _ => Eq.trans (show _ = (0 : ℝ) from rfl) (show (0 : ℝ) = _ from rfl)
  · exact fun _ => Eq.trans (show _ = (0 : ℝ) from rfl) (show (0 : ℝ) = _ from rfl)
  · refine fun _ => Eq.trans (show _ = 0.5 * (gc 1 1 * (tabRT P T 3 1 0 + tabRT P T 0 1 3 - tabRT P T 1 0 3)) from rfl) (Eq.trans ?_ (show 0.5 * (gc 1 1 * (tabRT P' T 3 1 0 + tabRT P' T 0 1 3 - tabRT P' T 1 0 3)) = _ from rfl))
    simp only [tabRT0, tabRT1, tabRT2, tabRT3, e00, e01, e02, e03, e10, e11, e12, e13, e20, e21, e22, e23, e30, e31, e32]
  · exact fun _ => Eq.trans (show _ = (0 : ℝ) from rfl) (show (0 : ℝ) = _ from rfl)
  · refine fun _ => Eq.trans (show _ = 0.5 * (gc 1 1 * (tabRT P T 1 1 1 + tabRT P T 1 1 1 - tabRT P T 1 1 1)) from rfl) (Eq.trans ?_ (show 0.5 * (gc 1 1 * (tabRT P' T 1 1 1 + tabRT P' T 1 1 1 - tabRT P' T 1 1 1)) = _ from rfl))
    simp only [tabRT0, tabRT1, tabRT2, tabRT3, e00, e01, e02, e03, e10, e11, e12, e13, e20, e21, e22, e23, e30, e31, e32]
  · refine fun _ => Eq.trans (show _ = 0.5 * (gc 1 1 * (tabRT P T 2 1 1 + tabRT P T 1 1 2 - tabRT P T 1 1 2)) from rfl) (Eq.trans ?_ (show 0.5 * (gc 1 1 * (tabRT P' T 2 1 1 + tabRT P' T 1 1 2 - tabRT P' T 1 1 2)) = _ from rfl))
    simp only [tabRT0, tabRT1, tabRT2, tabRT3, e00, e01, e02, e03, e10, e11, e12, e13, e20, e21, e22, e23, e30, e31, e32]
  · exact fun _ => Eq.trans (show _ = (0 : ℝ) from rfl) (show (0 : ℝ) = _ from rfl)
  · exact fun _ => Eq.trans (show _ = (0 : ℝ) from rfl) (show (0 : ℝ) = _ from rfl)
  · refine fun _ => Eq.trans (show _ = 0.5 * (gc 1 1 * (tabRT P T 2 1 1 + tabRT P T 1 1 2 - tabRT P T 1 1 2)) from rfl) (Eq.trans ?_ (show 0.5 * (gc 1 1 * (tabRT P' T 2 1 1 + tabRT P' T 1 1 2 - tabRT P' T 1 1 2)) = _ from rfl))
    simp only [tabRT0, tabRT1, tabRT2, tabRT3, e00, e01, e02, e03, e10, e11, e12, e13, e20, e21, e22, e23, e30, e31, e32]
  · refine fun _ => Eq.trans (show _ = 0.5 * (gc 1 1 * (tabRT P T 2 1 2 + tabRT P T 2 1 2 - tabRT P T 1 2 2)) from rfl) (Eq.trans ?_ (show 0.5 * (gc 1 1 * (tabRT P' T 2 1 2 + tabRT P' T 2 1 2 - tabRT P' T 1 2 2)) = _ from rfl))
    simp only [tabRT0, tabRT1, tabRT2, tabRT3, e00, e01, e02, e03, e10, e11, e12, e13, e20, e21, e22, e23, e30, e31, e32]
  · exact fun _ => Eq.trans (show _ = (0 : ℝ) from rfl) (show (0 : ℝ) = _ from rfl)
  · refine fun _ => Eq.trans (show _ = 0.5 * (gc 1 1 * (tabRT P T 3 1 0 + tabRT P T 0 1 3 - tabRT P T 1 0 3)) from rfl) (Eq.trans ?_ (show 0.5 * (gc 1 1 * (tabRT P' T 3 1 0 + tabRT P' T 0 1 3 - tabRT P' T 1 0 3)) = _ from rfl))
    simp only [tabRT0, tabRT1, tabRT2, tabRT3, e00, e01, e02, e03, e10, e11, e12, e13, e20, e21, e22, e23, e30, e31, e32]
  · exact fun _ => Eq.trans (show _ = (0 : ℝ) from rfl) (show (0 : ℝ) = _ from rfl)
  · exact fun _ => Eq.trans (show _ = (0 : ℝ) from rfl) (show (0 : ℝ) = _ from rfl)
  · exact fun h => absurd (by decide) h
  · refine fun _ => Eq.trans (show _ = 0.5 * (gc 2 2 * (tabRT P T 0 2 0 + tabRT P T 0 2 0 - tabRT P T 2 0 0)) from rfl) (Eq.trans ?_ (show 0.5 * (gc 2 2 * (tabRT P' T 0 2 0 + tabRT P' T 0 2 0 - tabRT P' T 2 0 0)) = _ from rfl))
    simp only [tabRT0, tabRT1, tabRT2, tabRT3, e00, e01, e02, e03, e10, e11, e12, e13, e20, e21, e22, e23, e30, e31, e32]
  · exact fun _ => Eq.trans (show _ = (0 : ℝ) from rfl) (show (0 : ℝ) = _ from rfl)
  · exact fun _ => Eq.trans (show _ = (0 : ℝ) from rfl) (show (0 : ℝ) = _ from rfl)
  · refine fun _ => Eq.trans (show _ = 0.5 * (gc 2 2 * (tabRT P T 3 2 0 + tabRT P T 0 2 3 - tabRT P T 2 0 3)) from rfl) (Eq.trans ?_ (show 0.5 * (gc 2 2 * (tabRT P' T 3 2 0 + tabRT P' T 0 2 3 - tabRT P' T 2 0 3)) = _ from rfl))
    simp only [tabRT0, tabRT1, tabRT2, tabRT3, e00, e01, e02, e03, e10, e11, e12, e13, e20, e21, e22, e23, e30, e31, e32]
  · exact fun _ => Eq.trans (show _ = (0 : ℝ) from rfl) (show (0 : ℝ) = _ from rfl)
  · refine fun _ => Eq.trans (show _ = 0.5 * (gc 2 2 * (tabRT P T 1 2 1 + tabRT P T 1 2 1 - tabRT P T 2 1 1)) from rfl) (Eq.trans ?_ (show 0.5 * (gc 2 2 * (tabRT P' T 1 2 1 + tabRT P' T 1 2 1 - tabRT P' T 2 1 1)) = _ from rfl))
    simp only [tabRT0, tabRT1, tabRT2, tabRT3, e00, e01, e02, e03, e10, e11, e12, e13, e20, e21, e22, e23, e30, e31, e32]
  · refine fun _ => Eq.trans (show _ = 0.5 * (gc 2 2 * (tabRT P T 2 2 1 + tabRT P T 1 2 2 - tabRT P T 2 1 2)) from rfl) (Eq.trans ?_ (show 0.5 * (gc 2 2 * (tabRT P' T 2 2 1 + tabRT P' T 1 2 2 - tabRT P' T 2 1 2)) = _ from rfl))
    simp only [tabRT0, tabRT1, tabRT2, tabRT3, e00, e01, e02, e03, e10, e11, e12, e13, e20, e21, e22, e23, e30, e31, e32]
  · exact fun _ => Eq.trans (show _ = (0 : ℝ) from rfl) (show (0 : ℝ) = _ from rfl)
  · exact fun _ => Eq.trans (show _ = (0 : ℝ) from rfl) (show (0 : ℝ) = _ from rfl)
  · refine fun _ => Eq.trans (show _ = 0.5 * (gc 2 2 * (tabRT P T 2 2 1 + tabRT P T 1 2 2 - tabRT P T 2 1 2)) from rfl) (Eq.trans ?_ (show 0.5 * (gc 2 2 * (tabRT P' T 2 2 1 + tabRT P' T 1 2 2 - tabRT P' T 2 1 2)) = _ from rfl))
    simp only [tabRT0, tabRT1, tabRT2, tabRT3, e00, e01, e02, e03, e10, e11, e12, e13, e20, e21, e22, e23, e30, e31, e32]
  · refine fun _ => Eq.trans (show _ = 0.5 * (gc 2 2 * (tabRT P T 2 2 2 + tabRT P T 2 2 2 - tabRT P T 2 2 2)) from rfl) (Eq.trans ?_ (show 0.5 * (gc 2 2 * (tabRT P' T 2 2 2 + tabRT P' T 2 2 2 - tabRT P' T 2 2 2)) = _ from rfl))
    simp only [tabRT0, tabRT1, tabRT2, tabRT3, e00, e01, e02, e03, e10, e11, e12, e13, e20, e21, e22, e23, e30, e31, e32]
  · exact fun _ => Eq.trans (show _ = (0 : ℝ) from rfl) (show (0 : ℝ) = _ from rfl)
  · refine fun _ => Eq.trans (show _ = 0.5 * (gc 2 2 * (tabRT P T 3 2 0 + tabRT P T 0 2 3 - tabRT P T 2 0 3)) from rfl) (Eq.trans ?_ (show 0.5 * (gc 2 2 * (tabRT P' T 3 2 0 + tabRT P' T 0 2 3 - tabRT P' T 2 0 3)) = _ from rfl))
    simp only [tabRT0, tabRT1, tabRT2, tabRT3, e00, e01, e02, e03, e10, e11, e12, e13, e20, e21, e22, e23, e30, e31, e32]
  · exact fun _ => Eq.trans (show _ = (0 : ℝ) from rfl) (show (0 : ℝ) = _ from rfl)
  · exact fun _ => Eq.trans (show _ = (0 : ℝ) from rfl) (show (0 : ℝ) = _ from rfl)
  · refine fun _ => Eq.trans (show _ = 0.5 * (gc 2 2 * (tabRT P T 3 2 3 + tabRT P T 3 2 3 - tabRT P T 2 3 3)) from rfl) (Eq.trans ?_ (show 0.5 * (gc 2 2 * (tabRT P' T 3 2 3 + tabRT P' T 3 2 3 - tabRT P' T 2 3 3)) = _ from rfl))
    simp only [tabRT0, tabRT1, tabRT2, tabRT3, e00, e01, e02, e03, e10, e11, e12, e13, e20, e21, e22, e23, e30, e31, e32]
  · exact fun _ => Eq.trans (show _ = (0 : ℝ) from rfl) (show (0 : ℝ) = _ from rfl)
  · refine fun _ => Eq.trans (show _ = 0.5 * (gc 3 0 * (tabRT P T 1 0 0 + tabRT P T 0 0 1) + gc 3 3 * (tabRT P T 1 3 0 + tabRT P T 0 3 1)) from rfl) (Eq.trans ?_ (show 0.5 * (gc 3 0 * (tabRT P' T 1 0 0 + tabRT P' T 0 0 1) + gc 3 3 * (tabRT P' T 1 3 0 + tabRT P' T 0 3 1)) = _ from rfl))
    simp only [tabRT0, tabRT1, tabRT2, tabRT3, e00, e01, e02, e03, e10, e11, e12, e13, e20, e21, e22, e23, e30, e31, e32]
  · refine fun _ => Eq.trans (show _ = 0.5 * (gc 3 0 * (tabRT P T 2 0 0 + tabRT P T 0 0 2) + gc 3 3 * (tabRT P T 2 3 0 + tabRT P T 0 3 2)) from rfl) (Eq.trans ?_ (show 0.5 * (gc 3 0 * (tabRT P' T 2 0 0 + tabRT P' T 0 0 2) + gc 3 3 * (tabRT P' T 2 3 0 + tabRT P' T 0 3 2)) = _ from rfl))
    simp only [tabRT0, tabRT1, tabRT2, tabRT3, e00, e01, e02, e03, e10, e11, e12, e13, e20, e21, e22, e23, e30, e31, e32]
  · exact fun _ => Eq.trans (show _ = (0 : ℝ) from rfl) (show (0 : ℝ) = _ from rfl)
  · refine fun _ => Eq.trans (show _ = 0.5 * (gc 3 0 * (tabRT P T 1 0 0 + tabRT P T 0 0 1) + gc 3 3 * (tabRT P T 1 3 0 + tabRT P T 0 3 1)) from rfl) (Eq.trans ?_ (show 0.5 * (gc 3 0 * (tabRT P' T 1 0 0 + tabRT P' T 0 0 1) + gc 3 3 * (tabRT P' T 1 3 0 + tabRT P' T 0 3 1)) = _ from rfl))
    simp only [tabRT0, tabRT1, tabRT2, tabRT3, e00, e01, e02, e03, e10, e11, e12, e13, e20, e21, e22, e23, e30, e31, e32]
  · exact fun _ => Eq.trans (show _ = (0 : ℝ) from rfl) (show (0 : ℝ) = _ from rfl)
  · exact fun _ => Eq.trans (show _ = (0 : ℝ) from rfl) (show (0 : ℝ) = _ from rfl)
  · exact fun h => absurd (by decide) h
  · refine fun _ => Eq.trans (show _ = 0.5 * (gc 3 0 * (tabRT P T 2 0 0 + tabRT P T 0 0 2) + gc 3 3 * (tabRT P T 2 3 0 + tabRT P T 0 3 2)) from rfl) (Eq.trans ?_ (show 0.5 * (gc 3 0 * (tabRT P' T 2 0 0 + tabRT P' T 0 0 2) + gc 3 3 * (tabRT P' T 2 3 0 + tabRT P' T 0 3 2)) = _ from rfl))
    simp only [tabRT0, tabRT1, tabRT2, tabRT3, e00, e01, e02, e03, e10, e11, e12, e13, e20, e21, e22, e23, e30, e31, e32]
  · exact fun _ => Eq.trans (show _ = (0 : ℝ) from rfl) (show (0 : ℝ) = _ from rfl)
  · exact fun _ => Eq.trans (show _ = (0 : ℝ) from rfl) (show (0 : ℝ) = _ from rfl)
  · refine fun _ => Eq.trans (show _ = 0.5 * (gc 3 0 * (tabRT P T 3 0 2 + tabRT P T 2 0 3) + gc 3 3 * (tabRT P T 3 3 2 + tabRT P T 2 3 3)) from rfl) (Eq.trans ?_ (show 0.5 * (gc 3 0 * (tabRT P' T 3 0 2 + tabRT P' T 2 0 3) + gc 3 3 * (tabRT P' T 3 3 2 + tabRT P' T 2 3 3)) = _ from rfl))
    simp only [tabRT0, tabRT1, tabRT2, tabRT3, e00, e01, e02, e03, e10, e11, e12, e13, e20, e21, e22, e23, e30, e31, e32]
  · exact fun _ => Eq.trans (show _ = (0 : ℝ) from rfl) (show (0 : ℝ) = _ from rfl)
  · exact fun h => absurd (by decide) h
  · refine fun _ => Eq.trans (show _ = 0.5 * (gc 3 0 * (tabRT P T 3 0 2 + tabRT P T 2 0 3) + gc 3 3 * (tabRT P T 3 3 2 + tabRT P T 2 3 3)) from rfl) (Eq.trans ?_ (show 0.5 * (gc 3 0 * (tabRT P' T 3 0 2 + tabRT P' T 2 0 3) + gc 3 3 * (tabRT P' T 3 3 2 + tabRT P' T 2 3 3)) = _ from rfl))
    simp only [tabRT0, tabRT1, tabRT2, tabRT3, e00, e01, e02, e03, e10, e11, e12, e13, e20, e21, e22, e23, e30, e31, e32]
  · exact fun _ => Eq.trans (show _ = (0 : ℝ) from rfl) (show (0 : ℝ) = _ from rfl)

/-- **C44 (part)**: outside the five positions `Γ^t_{rφ}`, `Γ^φ_{rφ}` (both orders) and `Γ^r_{φφ}` the symbols returned by
Kerr are the Christoffel symbols of the metric returned around that point. -/
theorem C44_kerr_levi_civita_partial {M a : ℝ} {x : Vec4} {Γ : Tab3}
    (h : Kerr.christoffels k (Kerr.new k "BoyerLindquist" M a) x = .ok Γ) :
    ∃ G Γ', ReturnsNear (Kerr.metricCovariant k (Kerr.new k "BoyerLindquist" M a)) G x ∧ IsLeviCivita G x Γ' ∧
      ∀ i j l, (i, j, l) ∉ [((0 : Fin 4), (1 : Fin 4), (3 : Fin 4)), (0, 3, 1), (3, 1, 3), (3, 3, 1), (1, 3, 3)] →
        Γ i j l = Γ' i j l := by
  obtain ⟨hr, rfl⟩ := (kerr_christoffels_iff k).mp h
  refine ⟨_, _, kerr_near k hr.1 hr.2.1 hr.2.2.1, kerr_lc k hr, ?_⟩
  exact chSym_good _ (kerrRcode_eq _ _ _ _ _)

/-- The symbols of Kerr are computed exactly off the ring, the horizons and the axis, for a legal spin. -/
theorem C44_kerr_total (M a : ℝ) (x : Vec4) :
    (∃ Γ, Kerr.christoffels k (Kerr.new k "BoyerLindquist" M a) x = .ok Γ) ↔
      ∃ al S D, alpha k M a = .ok al ∧ sigma k (x 1) (x 2) M a = .ok S ∧ delta k (x 1) M a 0 = .ok D ∧ S ≠ 0 ∧ D ≠ 0 ∧
        Real.sin (x 2) ≠ 0 := by
  constructor
  · rintro ⟨Γ, h⟩
    obtain ⟨hr, _⟩ := (kerr_christoffels_iff k).mp h
    exact ⟨_, _, _, alpha_ok k hr.1, sigma_ok k hr.1 _ _, delta0_ok k hr.1 _, hr.2.1, hr.2.2.1, hr.2.2.2⟩
  · rintro ⟨al, S, D, h1, h2, h3, h4, h5, h6⟩
    have ha : 0 ≤ a ∧ a ≤ 1 := ⟨((C41_alpha_ok k M a al).mp h1).1, ((C41_alpha_ok k M a al).mp h1).2.1⟩
    rw [sigma_ok k ha] at h2
    rw [delta0_ok k ha] at h3
    rw [← Except.ok.inj h2] at h4
    rw [← Except.ok.inj h3] at h5
    exact ⟨_, (kerr_christoffels_iff k).mpr ⟨⟨ha, h4, h5, h6⟩, rfl⟩⟩

/-- **C44 is false of this commit**: the symbols of Kerr are those of its own metric only without rotation, without mass, or
on the surface `r² = α² cos²θ`. -/
theorem C44_refuted_iff {M a : ℝ} {x : Vec4} {Γ : Tab3} {G : Vec4 → Mat4}
    (h : Kerr.christoffels k (Kerr.new k "BoyerLindquist" M a) x = .ok Γ)
    (hG : ReturnsNear (Kerr.metricCovariant k (Kerr.new k "BoyerLindquist" M a)) G x) :
    IsLeviCivita G x Γ ↔ a = 0 ∨ M = 0 ∨ x 1 ^ 2 = (k.G * M * a / k.c ^ 2 * Real.cos (x 2)) ^ 2 := by
  obtain ⟨hr, hΓ⟩ := (kerr_christoffels_iff k).mp h
  have hnear := returnsNear_unique (kerr_near k hr.1 hr.2.1 hr.2.2.1) hG
  have hlc := lc_congr hnear (kerr_lc k hr)
  have key : IsLeviCivita G x Γ ↔ kerrRcode k.c (schwarzschildRadius k M) (alF k M a) (x 1) (x 2) 3 3
      = kerrR k.c (schwarzschildRadius k M) (alF k M a) (x 1) (x 2) 3 3 := by
    constructor
    · intro hL
      have e := congrFun (congrFun (congrFun (lc_unique (Filter.Eventually.of_forall fun _ => rfl) hL hlc) 1) 3) 3
      rw [hΓ, chSymLoops_closed, chSymLoops_closed] at e
      have e' : (0.5 : ℝ) * ((-(sigF (alF k M a) (x 1) (x 2) / delF (schwarzschildRadius k M) (alF k M a) (x 1)))⁻¹ *
            (0 + 0 - kerrRcode k.c (schwarzschildRadius k M) (alF k M a) (x 1) (x 2) 3 3))
          = 0.5 * ((-(sigF (alF k M a) (x 1) (x 2) / delF (schwarzschildRadius k M) (alF k M a) (x 1)))⁻¹ *
            (0 + 0 - kerrR k.c (schwarzschildRadius k M) (alF k M a) (x 1) (x 2) 3 3)) := e
      have hne : (-(sigF (alF k M a) (x 1) (x 2) / delF (schwarzschildRadius k M) (alF k M a) (x 1)))⁻¹ ≠ 0 :=
        inv_ne_zero (neg_ne_zero.mpr (div_ne_zero hr.2.1 hr.2.2.1))
      have e2 := mul_left_cancel₀ (by norm_num) e'
      have e3 := mul_left_cancel₀ hne e2
      linarith
    · intro e
      have : kerrRcode k.c (schwarzschildRadius k M) (alF k M a) (x 1) (x 2)
          = kerrR k.c (schwarzschildRadius k M) (alF k M a) (x 1) (x 2) := by
        ext i j
        by_cases hij : (i, j) = (3, 3)
        · rw [Prod.mk.injEq] at hij; rw [hij.1, hij.2]; exact e
        · exact kerrRcode_eq _ _ _ _ _ i j hij
      rw [hΓ, this]; exact hlc
  rw [key]
  have hd : kerrRcode k.c (schwarzschildRadius k M) (alF k M a) (x 1) (x 2) 3 3
      - kerrR k.c (schwarzschildRadius k M) (alF k M a) (x 1) (x 2) 3 3
      = 2 * a ^ 2 * (k.G * M / k.c ^ 2) ^ 2 * Real.sin (x 2) ^ 4 * (2 * k.G * M / k.c ^ 2) / sigF (alF k M a) (x 1) (x 2) ^ 2 *
        ((k.G * M * a / k.c ^ 2 * Real.cos (x 2)) ^ 2 - x 1 ^ 2) := by
    show (-2 * x 1 + (alF k M a * Real.sin (x 2)) ^ 2 * tmpF _ _ _ _) * Real.sin (x 2) ^ 2
      - -((2 * x 1 + (alF k M a * Real.sin (x 2)) ^ 2 * tmpF _ _ _ _) * Real.sin (x 2) ^ 2) = _
    unfold tmpF
    have : sigF (alF k M a) (x 1) (x 2) - x 1 * (2 * x 1) = (k.G * M * a / k.c ^ 2 * Real.cos (x 2)) ^ 2 - x 1 ^ 2 := by
      unfold sigF alF; ring
    rw [this]
    unfold alF schwarzschildRadius
    ring
  rw [← sub_eq_zero, hd, mul_eq_zero, sub_eq_zero]
  have hs := hr.2.2.2
  have hS := hr.2.1
  have hc := k.c_pos.ne'
  have hG := k.G_pos.ne'
  constructor
  · rintro (h | h)
    · by_contra hcon
      push Not at hcon
      obtain ⟨h1, h2, _⟩ := hcon
      refine absurd h (div_ne_zero ?_ (pow_ne_zero 2 hS))
      have hM : k.G * M / k.c ^ 2 ≠ 0 := div_ne_zero (mul_ne_zero hG h2) (pow_ne_zero 2 hc)
      have hM2 : 2 * k.G * M / k.c ^ 2 ≠ 0 := div_ne_zero (mul_ne_zero (mul_ne_zero two_ne_zero hG) h2) (pow_ne_zero 2 hc)
      exact mul_ne_zero (mul_ne_zero (mul_ne_zero (mul_ne_zero two_ne_zero (pow_ne_zero 2 h1)) (pow_ne_zero 2 hM))
        (pow_ne_zero 4 hs)) hM2
    · exact Or.inr (Or.inr h.symm)
  · rintro (h | h | h)
    · left; rw [h]; simp
    · left; rw [h]; simp
    · right; exact h.symm

end Einpy.Num
