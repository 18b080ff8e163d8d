import Verif.Num.Conserved
import Verif.Num.Props5
import Verif.Integ.RKPy

/-!
# C115: `RK4naive` driven by `f_vec` converges to geodesics
-/

namespace Einpy.Num
open Classical Topology
open scoped ContDiff

/-- `metric.f_vec` as the right-hand side given to `RK4naive`: `f_vec(lambda_, vec)` does not read `lambda_`, and the
8-component `vec` is the pair of position and velocity. -/
def asRhs (f : Vec4 → Vec4 → Py (Vec4 × Vec4)) : ℝ → Vec4 × Vec4 → Py (Vec4 × Vec4) := fun _ y => f y.1 y.2

/-- `X` is a geodesic with velocity `V` around every parameter in `I`, for the metric `G`. -/
def IsGeodesicOn (G : Vec4 → Mat4) (X V : ℝ → Vec4) (I : Set ℝ) : Prop :=
  ∀ t ∈ I, ∀ᶠ u in 𝓝 t, HasDerivAt X (V u) u ∧ ∃ Γ, IsLeviCivita G (X u) Γ ∧ HasDerivAt V (geodesicAccel Γ (V u)) u

/-- the field for symbols given as a function of position -/
noncomputable def geoField (Γ : Vec4 → Tab3) (_ : ℝ) (y : Vec4 × Vec4) : Vec4 × Vec4 := (y.2, geodesicAccel (Γ y.1) y.2)

theorem geoField_smooth {Γ : Vec4 → Tab3} {U : Set Vec4} (h : ∀ x ∈ U, ∀ i j l, ContDiffAt ℝ ∞ (fun x => Γ x i j l) x) :
    ContDiffOn ℝ ∞ (fun p : ℝ × Vec4 × Vec4 => geoField Γ p.1 p.2) {p | p.2.1 ∈ U} := by
  intro p hp
  refine ContDiffAt.contDiffWithinAt ?_
  refine ContDiffAt.prodMk (by fun_prop) ?_
  rw [contDiffAt_pi]
  intro i
  refine ContDiffAt.neg (ContDiffAt.sum fun a _ => ContDiffAt.sum fun b _ => ?_)
  have hx : ContDiffAt ℝ ∞ (fun p : ℝ × Vec4 × Vec4 => Γ p.2.1 i a b) p :=
    ContDiffAt.comp (g := fun x => Γ x i a b) p (h p.2.1 hp i a b) (by fun_prop)
  have hv : ∀ c : Fin 4, ContDiffAt ℝ ∞ (fun p : ℝ × Vec4 × Vec4 => p.2.2 c) p := by
    intro c; fun_prop
  exact (hx.mul (hv a)).mul (hv b)

theorem axi_smooth {A B C D E : Vec4 → ℝ} {x : Vec4} (hA : ContDiffAt ℝ ∞ A x) (hB : ContDiffAt ℝ ∞ B x) (hC : ContDiffAt ℝ ∞ C x)
    (hD : ContDiffAt ℝ ∞ D x) (hE : ContDiffAt ℝ ∞ E x) :
    ∀ i j, ContDiffAt ℝ ∞ (fun y => axi (A y) (B y) (C y) (D y) (E y) i j) x := by
  have z : ContDiffAt ℝ ∞ (fun _ : Vec4 => (0 : ℝ)) x := contDiffAt_const
  exact fin4_cases (fin4_cases hA z z hB) (fin4_cases z hC z z) (fin4_cases z z hD z) (fin4_cases hB z z hE)

theorem formula_smooth {Gi : Vec4 → Mat4} {P Q : Vec4 → Mat4} {x : Vec4} (hG : ∀ i j, ContDiffAt ℝ ∞ (fun y => Gi y i j) x)
    (hP : ∀ i j, ContDiffAt ℝ ∞ (fun y => P y i j) x) (hQ : ∀ i j, ContDiffAt ℝ ∞ (fun y => Q y i j) x) (i j l : Fin 4) :
    ContDiffAt ℝ ∞ (fun y => christoffelFormula (Gi y) (tabRT (P y) (Q y)) i j l) x := by
  have z : ContDiffAt ℝ ∞ (fun _ : Vec4 => (0 : ℝ)) x := contDiffAt_const
  have ht : ∀ a b c, ContDiffAt ℝ ∞ (fun y => tabRT (P y) (Q y) a b c) x :=
    fin4_cases (fun _ _ => z) hP hQ (fun _ _ => z)
  exact contDiffAt_const.mul (ContDiffAt.sum fun m _ => (hG i m).mul (((ht l m j).add (ht j m l)).sub (ht m j l)))

theorem sm_div {f g : Vec4 → ℝ} {x : Vec4} (hf : ContDiffAt ℝ ∞ f x) (hg : ContDiffAt ℝ ∞ g x) (h : g x ≠ 0) :
    ContDiffAt ℝ ∞ (fun y => f y / g y) x := by
  simp only [div_eq_mul_inv]
  exact hf.mul (hg.inv h)

/-- The common argument. -/
theorem rk_geodesics {f : Vec4 → Vec4 → Py (Vec4 × Vec4)} {G : Vec4 → Mat4} {Γ : Vec4 → Tab3} {U : Set Vec4} (hU : IsOpen U)
    (hf : ∀ x ∈ U, ∀ v, f x v = .ok (v, geodesicAccel (Γ x) v)) (hs : ∀ x ∈ U, ∀ i j l, ContDiffAt ℝ ∞ (fun x => Γ x i j l) x)
    (hL : ∀ x ∈ U, IsLeviCivita G x (Γ x)) {X V : ℝ → Vec4} {a b t₀ : ℝ} (ht₀ : t₀ ∈ Set.Icc a b)
    (hX : IsGeodesicOn G X V (Set.Icc a b)) (hXU : ∀ t ∈ Set.Icc a b, X t ∈ U) :
    ∃ K h₀ : ℝ, 0 < h₀ ∧ ∀ tb h, |h| < h₀ → ∀ n : ℕ, t₀ + n * h ∈ Set.Icc a b →
      ∃ s, RK4Py.steps n (RK4Py.new (asRhs f) t₀ (X t₀, V t₀) tb h) = .ok s ∧ s.t = t₀ + n * h ∧
        ‖s.y.1 - X (t₀ + n * h)‖ ≤ K * |h| ^ 4 ∧ ‖s.y.2 - V (t₀ + n * h)‖ ≤ K * |h| ^ 4 := by
  have hO : IsOpen {p : ℝ × Vec4 × Vec4 | p.2.1 ∈ U} := hU.preimage (by fun_prop : Continuous fun p : ℝ × Vec4 × Vec4 => p.2.1)
  obtain ⟨K, h₀, hp, hK⟩ := rk4py_converges (asRhs f) (geoField Γ) _ hO (fun t y hy => hf y.1 hy y.2)
    (geoField_smooth hs) (fun t => (X t, V t)) a b t₀ ht₀ (fun t ht => hXU t ht) (by
      intro t ht
      have hc : ContinuousAt X t := (hX t ht).self_of_nhds.1.continuousAt
      filter_upwards [hX t ht, hc.eventually_mem (hU.mem_nhds (hXU t ht))] with u hu hm
      obtain ⟨h1, Γ', h2, h3⟩ := hu
      obtain rfl : Γ' = Γ (X u) := lc_unique (Filter.Eventually.of_forall fun _ => rfl) h2 (hL _ hm)
      exact h1.prodMk h3)
  refine ⟨K, h₀, hp, fun tb h hh n hn => ?_⟩
  obtain ⟨s, e1, e2, e3⟩ := hK tb h hh n hn
  exact ⟨s, e1, e2, (norm_fst_le _).trans e3, (norm_snd_le _).trans e3⟩

variable (k : PhysConst)

theorem sm_r (x : Vec4) : ContDiffAt ℝ ∞ (fun y : Vec4 => y 1) x := by fun_prop
theorem sm_sin (x : Vec4) : ContDiffAt ℝ ∞ (fun y : Vec4 => Real.sin (y 2)) x := by fun_prop
theorem sm_cos (x : Vec4) : ContDiffAt ℝ ∞ (fun y : Vec4 => Real.cos (y 2)) x := by fun_prop
theorem sm_c (c : ℝ) (x : Vec4) : ContDiffAt ℝ ∞ (fun _ : Vec4 => c) x := contDiffAt_const

theorem sch_smooth {c rs : ℝ} (hc : c ≠ 0) {x : Vec4} (hr : x 1 ≠ 0) (h4 : 1 - rs / x 1 ≠ 0) (hs : Real.sin (x 2) ≠ 0) (i j l : Fin 4) :
    ContDiffAt ℝ ∞ (fun y => christoffelFormula (schI c rs (y 1) (y 2)) (tabRT (schR c rs (y 1) (y 2)) (schTh (y 1) (y 2))) i j l) x := by
  have r := sm_r x
  have sn := sm_sin x
  have cs := sm_cos x
  have z := sm_c 0 x
  have f : ContDiffAt ℝ ∞ (fun y : Vec4 => 1 - rs / y 1) x := (sm_c 1 x).sub (sm_div (sm_c rs x) r hr)
  refine formula_smooth ?_ ?_ ?_ i j l
  · exact axi_smooth ((f.mul (sm_c (c ^ 2) x)).inv (mul_ne_zero h4 (pow_ne_zero 2 hc))) z f.neg
      ((r.pow 2).neg.inv (neg_ne_zero.mpr (pow_ne_zero 2 hr)))
      (((r.mul sn).pow 2).neg.inv (neg_ne_zero.mpr (pow_ne_zero 2 (mul_ne_zero hr hs))))
  · exact axi_smooth ((sm_div (sm_c rs x) (r.pow 2) (pow_ne_zero 2 hr)).mul (sm_c (c ^ 2) x)) z
      (sm_div (sm_div (sm_c rs x) (r.pow 2) (pow_ne_zero 2 hr)) (f.pow 2) (pow_ne_zero 2 h4)) ((sm_c 2 x).mul r).neg
      (((sm_c 2 x).mul r).mul (sn.pow 2)).neg
  · exact axi_smooth z z z z ((((sm_c 2 x).mul (r.pow 2)).mul sn).mul cs).neg

/-- **C115**: `RK4naive` with `f_vec` of a Schwarzschild object.  Given a geodesic of the Schwarzschild line element on `[a, b]` that
avoids the centre, the horizon and the axis, for every small enough step size `n` calls of `step` from its position and velocity
at `t₀` succeed, and are within `K |h|⁴` of its position and velocity at `t₀ + n h`. -/
theorem C115_schwarzschild_geodesics {M : ℝ} {X V : ℝ → Vec4} {a b t₀ : ℝ} (ht₀ : t₀ ∈ Set.Icc a b)
    (hX : IsGeodesicOn (schwarzschildLineElement k.c (2 * k.G * M / k.c ^ 2)) X V (Set.Icc a b))
    (hr : ∀ t ∈ Set.Icc a b, X t 1 ≠ 0 ∧ X t 1 ≠ 2 * k.G * M / k.c ^ 2 ∧ Real.sin (X t 2) ≠ 0) :
    ∃ K h₀ : ℝ, 0 < h₀ ∧ ∀ tb h, |h| < h₀ → ∀ n : ℕ, t₀ + n * h ∈ Set.Icc a b →
      ∃ s, RK4Py.steps n (RK4Py.new (asRhs (Schwarzschild.fVec k (Schwarzschild.new k "Spherical" M))) t₀ (X t₀, V t₀) tb h) = .ok s ∧
        s.t = t₀ + n * h ∧ ‖s.y.1 - X (t₀ + n * h)‖ ≤ K * |h| ^ 4 ∧ ‖s.y.2 - V (t₀ + n * h)‖ ≤ K * |h| ^ 4 := by
  let U : Set Vec4 := {x | x 1 ≠ 0 ∧ x 1 ≠ 2 * k.G * M / k.c ^ 2 ∧ Real.sin (x 2) ≠ 0}
  have hU : IsOpen U := by
    have c1 : Continuous fun x : Vec4 => x 1 := continuous_apply 1
    have c2 : Continuous fun x : Vec4 => Real.sin (x 2) := by fun_prop
    exact (isOpen_ne_fun c1 continuous_const).inter ((isOpen_ne_fun c1 continuous_const).inter (isOpen_ne_fun c2 continuous_const))
  have h4 : ∀ x ∈ U, 1 - schwarzschildRadius k M / x 1 ≠ 0 := by
    intro x hx h
    rw [sub_eq_zero, eq_comm, div_eq_iff hx.1, one_mul] at h
    exact hx.2.1 h.symm
  have hΓ : ∀ x ∈ U, Schwarzschild.christoffels k (Schwarzschild.new k "Spherical" M) x = .ok
      (christoffelFormula (schI k.c (schwarzschildRadius k M) (x 1) (x 2))
        (tabRT (schR k.c (schwarzschildRadius k M) (x 1) (x 2)) (schTh (x 1) (x 2)))) := by
    intro x hx
    have h3 := (sch_conds hx.1).mpr (h4 x hx)
    rw [sch_christoffels, if_neg (by push Not; exact ⟨hx.1, h3, hx.2.2⟩)]
    congr 1
    funext i j l
    exact schChl_eq k.c_pos.ne' hx.1 h3 hx.2.2 i j l
  refine rk_geodesics hU (fun x hx v => C45_schwarzschild_rhs k (hΓ x hx) v)
    (fun x hx i j l => sch_smooth k.c_pos.ne' hx.1 (h4 x hx) hx.2.2 i j l) ?_ ht₀ hX hr
  intro x hx
  obtain ⟨G, hG, hL⟩ := C42_schwarzschild_levi_civita k (hΓ x hx)
  refine lc_congr ?_ hL
  filter_upwards [hG] with y hy
  exact ((C73_schwarzschild_line_element k M y _).mp hy).2.2

theorem kerr_smooth {c rs al : ℝ} (hc : c ≠ 0) {x : Vec4} (hS : sigF al (x 1) (x 2) ≠ 0) (hD : delF rs al (x 1) ≠ 0)
    (hs : Real.sin (x 2) ≠ 0) (i j l : Fin 4) :
    ContDiffAt ℝ ∞ (fun y => christoffelFormula (kerrI c rs al (y 1) (y 2))
      (tabRT (kerrR c rs al (y 1) (y 2)) (kerrTh c rs al (y 1) (y 2))) i j l) x := by
  have r := sm_r x
  have sn := sm_sin x
  have cc := sm_c c x
  have aa := sm_c al x
  have rr := sm_c rs x
  have two := sm_c 2 x
  have s2 : ContDiffAt ℝ ∞ (fun y : Vec4 => Real.sin (2 * y 2)) x := by fun_prop
  have S : ContDiffAt ℝ ∞ (fun y : Vec4 => sigF al (y 1) (y 2)) x := (r.pow 2).add ((aa.mul (sm_cos x)).pow 2)
  have D : ContDiffAt ℝ ∞ (fun y : Vec4 => delF rs al (y 1)) x := ((r.pow 2).sub (rr.mul r)).add (aa.pow 2)
  have T : ContDiffAt ℝ ∞ (fun y : Vec4 => tmpF rs al (y 1) (y 2)) x :=
    sm_div (rr.mul (S.sub (r.mul (two.mul r)))) (S.pow 2) (pow_ne_zero 2 hS)
  have A : ContDiffAt ℝ ∞ (fun y : Vec4 => (1 - rs * y 1 / sigF al (y 1) (y 2)) * c ^ 2) x :=
    ((sm_c 1 x).sub (sm_div (rr.mul r) S hS)).mul (cc.pow 2)
  have B : ContDiffAt ℝ ∞ (fun y : Vec4 => (c * rs * y 1 * al * Real.sin (y 2) ^ 2) / sigF al (y 1) (y 2)) x :=
    sm_div ((((cc.mul rr).mul r).mul aa).mul (sn.pow 2)) S hS
  have E : ContDiffAt ℝ ∞ (fun y : Vec4 => -((y 1 ^ 2 + al ^ 2 + (rs * y 1 * (al * Real.sin (y 2)) ^ 2) / sigF al (y 1) (y 2)) * Real.sin (y 2) ^ 2)) x :=
    ((((r.pow 2).add (aa.pow 2)).add (sm_div ((rr.mul r).mul ((aa.mul sn).pow 2)) S hS)).mul (sn.pow 2)).neg
  have bne : (1 - rs * x 1 / sigF al (x 1) (x 2)) * c ^ 2 *
      (-((x 1 ^ 2 + al ^ 2 + (rs * x 1 * (al * Real.sin (x 2)) ^ 2) / sigF al (x 1) (x 2)) * Real.sin (x 2) ^ 2))
      - ((c * rs * x 1 * al * Real.sin (x 2) ^ 2) / sigF al (x 1) (x 2)) ^ 2 ≠ 0 := by
    rw [kerr_block c rs al (x 1) (x 2) hS]
    exact neg_ne_zero.mpr (mul_ne_zero (mul_ne_zero hD (pow_ne_zero 2 hs)) (pow_ne_zero 2 hc))
  have bl := (A.mul E).sub (B.pow 2)
  have dS : ContDiffAt ℝ ∞ (fun y : Vec4 => -(al ^ 2) * Real.sin (2 * y 2)) x := (aa.pow 2).neg.mul s2
  refine formula_smooth ?_ ?_ ?_ i j l
  · exact axi_smooth (sm_div E bl bne) (sm_div B.neg bl bne) ((sm_div S D hD).neg.inv (neg_ne_zero.mpr (div_ne_zero hS hD)))
      (S.neg.inv (neg_ne_zero.mpr hS)) (sm_div A bl bne)
  · exact axi_smooth (T.neg.mul (cc.pow 2)) (((cc.mul aa).mul (sn.pow 2)).mul T)
      (sm_div ((two.mul r).sub (S.mul (sm_div ((two.mul r).sub rr) D hD))).neg D hD) (two.mul r).neg
      ((((two.mul r).add (((aa.mul sn).pow 2).mul T)).mul (sn.pow 2)).neg)
  · exact axi_smooth (((((sm_div cc S hS).pow 2).mul rr).mul r).mul dS)
      ((sm_div (((cc.mul aa).mul rr).mul r) (S.pow 2) (pow_ne_zero 2 hS)).mul ((S.mul s2).sub (dS.mul (sn.pow 2))))
      (sm_div dS D hD).neg dS.neg
      ((s2.neg.mul ((r.pow 2).add (aa.pow 2))).sub ((((rr.mul r).mul (aa.pow 2)).mul ((sm_div sn S hS).pow 2)).mul
        (((two.mul S).mul s2).sub ((sn.pow 2).mul dS))))

/-- **C115**: the same for a neutral test particle and a Kerr-Newman object; the geodesics are those of the Kerr line element with
the spin length of the object, the metric the class returns whatever its charge (C46). -/
theorem C115_kn_neutral_geodesics {M a Q al : ℝ} (hal : alpha k M a = .ok al) {X V : ℝ → Vec4} {p q t₀ : ℝ} (ht₀ : t₀ ∈ Set.Icc p q)
    (hX : IsGeodesicOn (knLineElement k.c (2 * k.G * M / k.c ^ 2) al 0) X V (Set.Icc p q))
    (hr : ∀ t ∈ Set.Icc p q, X t 1 ^ 2 + al ^ 2 * Real.cos (X t 2) ^ 2 ≠ 0 ∧
      X t 1 ^ 2 - 2 * k.G * M / k.c ^ 2 * X t 1 + al ^ 2 ≠ 0 ∧ Real.sin (X t 2) ≠ 0) :
    ∃ K h₀ : ℝ, 0 < h₀ ∧ ∀ tb h, |h| < h₀ → ∀ n : ℕ, t₀ + n * h ∈ Set.Icc p q →
      ∃ s, RK4Py.steps n (RK4Py.new (asRhs (KerrNewman.fVec k (KerrNewman.new k "BoyerLindquist" M a Q 0))) t₀ (X t₀, V t₀) tb h) = .ok s ∧
        s.t = t₀ + n * h ∧ ‖s.y.1 - X (t₀ + n * h)‖ ≤ K * |h| ^ 4 ∧ ‖s.y.2 - V (t₀ + n * h)‖ ≤ K * |h| ^ 4 := by
  have ha : 0 ≤ a ∧ a ≤ 1 := by
    by_contra hn
    rw [alpha_bad k hn] at hal
    cases hal
  obtain rfl : alF k M a = al := Except.ok.inj ((alpha_ok k ha).symm.trans hal)
  let U : Set Vec4 := {x | sigF (alF k M a) (x 1) (x 2) ≠ 0 ∧ delF (schwarzschildRadius k M) (alF k M a) (x 1) ≠ 0 ∧ Real.sin (x 2) ≠ 0}
  have hU : IsOpen U := by
    have c1 : Continuous fun x : Vec4 => sigF (alF k M a) (x 1) (x 2) := by unfold sigF; fun_prop
    have c2 : Continuous fun x : Vec4 => delF (schwarzschildRadius k M) (alF k M a) (x 1) := by unfold delF; fun_prop
    have c3 : Continuous fun x : Vec4 => Real.sin (x 2) := by fun_prop
    exact (isOpen_ne_fun c1 continuous_const).inter ((isOpen_ne_fun c2 continuous_const).inter (isOpen_ne_fun c3 continuous_const))
  have hreg : ∀ x ∈ U, Reg k M a x := fun x hx => ⟨ha, hx.1, hx.2.1, hx.2.2⟩
  have hΓ : ∀ x ∈ U, KerrNewman.christoffels k (KerrNewman.new k "BoyerLindquist" M a Q 0) x = .ok
      (christoffelFormula (kerrI k.c (schwarzschildRadius k M) (alF k M a) (x 1) (x 2))
        (tabRT (kerrR k.c (schwarzschildRadius k M) (alF k M a) (x 1) (x 2)) (kerrTh k.c (schwarzschildRadius k M) (alF k M a) (x 1) (x 2)))) := by
    intro x hx
    refine (kn_christoffels_iff k).mpr ⟨hreg x hx, ?_⟩
    funext i j l
    exact (chSymLoops_eq _ _ _ _ _ _ _ _ _ _ _ _ _ _ _ i j l).symm
  refine rk_geodesics hU (fun x hx v => C70_kn_rhs_neutral k (hΓ x hx) v)
    (fun x hx i j l => kerr_smooth k.c_pos.ne' hx.1 hx.2.1 hx.2.2 i j l) ?_ ht₀ hX ?_
  · intro x hx
    obtain ⟨G, hG, hL⟩ := C68_kn_levi_civita k (hΓ x hx)
    rw [kn_metric_eq] at hG
    refine lc_congr ?_ hL
    filter_upwards [hG] with y hy
    obtain ⟨al, S, D, h1, _, _, _, _, h6⟩ := (C73_kerr_line_element k M a y _).mp hy
    rw [h6, ← Except.ok.inj ((alpha_ok k ha).symm.trans h1)]
  · intro t ht
    obtain ⟨h1, h2, h3⟩ := hr t ht
    refine ⟨?_, h2, h3⟩
    intro e
    apply h1
    rw [← e, sigF]; ring

/-! ### The hypotheses are met -/

/-- The circular orbit at `r = 4 M` is a geodesic of the Schwarzschild line element on every interval, outside the horizon. -/
example (a b : ℝ) : IsGeodesicOn (schwarzschildLineElement 1 2) (fun t => ![8 * t, 4, Real.pi / 2, t]) (fun _ => ![8, 0, 0, 1]) (Set.Icc a b) := by
  have hc : ∀ t : ℝ, Schwarzschild.christoffels unitConst (Schwarzschild.new unitConst "Spherical" 1) ![8 * t, 4, Real.pi / 2, t]
      = .ok (schChl 1 2 4 (Real.pi / 2)) := by
    intro t
    rw [sch_christoffels, unit_schRad, if_neg]
    · rw [show (![8 * t, 4, Real.pi / 2, t] : Vec4) 1 = 4 from rfl, show (![8 * t, 4, Real.pi / 2, t] : Vec4) 2 = Real.pi / 2 from rfl,
        mul_one, show unitConst.c = 1 from rfl]
    · rw [show (![8 * t, 4, Real.pi / 2, t] : Vec4) 1 = 4 from rfl, show (![8 * t, 4, Real.pi / 2, t] : Vec4) 2 = Real.pi / 2 from rfl,
        Real.sin_pi_div_two]
      norm_num
  intro t _
  refine Filter.Eventually.of_forall fun u => ⟨circular_curve 8 u, schChl 1 2 4 (Real.pi / 2), ?_, ?_⟩
  · obtain ⟨G, hG, hL⟩ := C42_schwarzschild_levi_civita unitConst (hc u)
    refine lc_congr ?_ hL
    filter_upwards [hG] with y hy
    rw [((C73_schwarzschild_line_element unitConst 1 y _).mp hy).2.2]
    show schwarzschildLineElement 1 (2 * 1 * 1 / 1 ^ 2) y = _
    norm_num
  · refine (hasDerivAt_const u _).congr_deriv ?_
    funext i
    unfold geodesicAccel
    simp only [Fin.sum_univ_four]
    revert i
    refine fin4_cases ?_ ?_ ?_ ?_ <;> (simp [schChl]; try norm_num)

/-- The circular orbit at `r = 4 M` around the maximally rotating body is a geodesic of the Kerr line element. -/
example (p q : ℝ) : IsGeodesicOn (knLineElement 1 2 1 0) (fun t => ![9 * t, 4, Real.pi / 2, t]) (fun _ => ![9, 0, 0, 1]) (Set.Icc p q) ∧
    alpha unitConst 1 1 = .ok 1 := by
  refine ⟨?_, by rw [alpha_ok unitConst (by norm_num), exAl]⟩
  intro t _
  refine Filter.Eventually.of_forall fun u => ⟨circular_curve 9 u,
    christoffelFormula (kerrI 1 2 1 4 (Real.pi / 2)) (tabRT (kerrR 1 2 1 4 (Real.pi / 2)) (kerrTh 1 2 1 4 (Real.pi / 2))), ?_, ?_⟩
  · have hS : sigF 1 ((![9 * u, 4, Real.pi / 2, u] : Vec4) 1) ((![9 * u, 4, Real.pi / 2, u] : Vec4) 2) ≠ 0 := by
      show sigF 1 4 (Real.pi / 2) ≠ 0
      rw [exSig]; norm_num
    have hD : delF 2 1 ((![9 * u, 4, Real.pi / 2, u] : Vec4) 1) ≠ 0 := by
      show delF 2 1 4 ≠ 0
      rw [delF]; norm_num
    have hL : IsLeviCivita (fun y => kerrT 1 2 1 (y 1) (y 2)) ![9 * u, 4, Real.pi / 2, u]
        (christoffelFormula (kerrI 1 2 1 4 (Real.pi / 2)) (tabRT (kerrR 1 2 1 4 (Real.pi / 2)) (kerrTh 1 2 1 4 (Real.pi / 2)))) := by
      refine ⟨_, _, kerrT_hasPartials 1 2 1 hS hD, kerrI_mul one_ne_zero hS hD ?_, fun _ _ _ => rfl⟩
      show Real.sin (Real.pi / 2) ≠ 0
      rw [Real.sin_pi_div_two]; norm_num
    refine lc_congr ?_ hL
    filter_upwards [(cont_sigF 1 _).eventually_ne hS] with y hy
    exact (knLine_zero 1 2 1 y hy).symm
  · refine (hasDerivAt_const u _).congr_deriv ?_
    refine (circular_accel _ _ _ _ ?_ (exTh 9)).symm
    unfold kerrR
    rw [axi00, axi03, axi30, axi33, exTmp, Real.sin_pi_div_two]
    norm_num

end Einpy.Num
