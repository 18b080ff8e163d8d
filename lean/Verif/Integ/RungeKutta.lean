import Verif.Integ.Converge
import Mathlib.Analysis.Calculus.FDeriv.Symmetric

/-!
# The classical Runge–Kutta step (the analysis behind C108)

Nothing in this file is about einsteinpy.
-/

namespace Einpy.Flow
open Topology Asymptotics Finset
open scoped ContDiff

variable {E : Type*} [NormedAddCommGroup E] [NormedSpace ℝ E]

/-- one classical Runge–Kutta step for `s' = f(s)` -/
noncomputable def rk4 (f : E → E) (h : ℝ) (s : E) : E :=
  let k0 := f s
  let k1 := f (s + (h / 2) • k0)
  let k2 := f (s + (h / 2) • k1)
  let k3 := f (s + h • k2)
  s + (h / 6) • (k0 + (2 : ℝ) • k1 + (2 : ℝ) • k2 + k3)

/-! ## calculus of `O(h^n)` -/

section bigO
variable {G : Type*} [NormedAddCommGroup G] [NormedSpace ℝ G] {l : Filter (ℝ × E)}
set_option linter.unusedSectionVars false

theorem O_mono (hl : Filter.Tendsto (fun x : ℝ × E => x.1) l (𝓝 0)) {u : ℝ × E → G} {m n : ℕ} (hmn : m ≤ n)
    (h : u =O[l] fun x => x.1 ^ n) : u =O[l] fun x => x.1 ^ m := by
  refine h.trans ?_
  have h1 : (fun x : ℝ × E => x.1 ^ n) = fun x => x.1 ^ m * x.1 ^ (n - m) := by
    funext x; rw [← pow_add]; congr 1; omega
  rw [h1]
  have h2 : (fun x : ℝ × E => x.1 ^ (n - m)) =O[l] fun _ => (1 : ℝ) := (hl.pow (n - m)).isBigO_one ℝ
  simpa using (isBigO_refl (fun x : ℝ × E => x.1 ^ m) l).mul h2

theorem O_pow {u : ℝ × E → G} {n : ℕ} (j : ℕ) (h : u =O[l] fun x => x.1 ^ n) :
    (fun x => x.1 ^ j • u x) =O[l] fun x => x.1 ^ (j + n) := by
  simp only [pow_add]
  exact (isBigO_refl (fun x : ℝ × E => x.1 ^ j) l).smul h

theorem O_clm {G' : Type*} [NormedAddCommGroup G'] [NormedSpace ℝ G'] {L : ℝ × E → G →L[ℝ] G'} {v : ℝ × E → G}
    {g₁ g₂ : ℝ × E → ℝ} (h1 : L =O[l] g₁) (h2 : v =O[l] g₂) : (fun x => L x (v x)) =O[l] fun x => g₁ x * g₂ x := by
  have h3 : (fun x => L x (v x)) =O[l] fun x => ‖L x‖ * ‖v x‖ :=
    IsBigO.of_bound 1 (Filter.Eventually.of_forall fun x => by
      rw [one_mul, Real.norm_of_nonneg (by positivity)]; exact (L x).le_opNorm _)
  exact h3.trans (h1.norm_left.mul h2.norm_left)

theorem O_one {u : ℝ × E → G} {g : G} (h : Filter.Tendsto u l (𝓝 g)) : u =O[l] fun x : ℝ × E => x.1 ^ 0 := by
  simpa only [pow_zero] using h.isBigO_one ℝ

end bigO

/-! ## Taylor expansion of `f(s + h u)` -/

theorem taylor_dir {U : Set E} (hU : IsOpen U) (f : SmoothFn U) {s₀ : E} (hs : s₀ ∈ U) (u₀ : E) :
    (fun x : ℝ × E × E => f.1 (x.2.1 + x.1 • x.2.2) - (f.1 x.2.1 + x.1 • fderiv ℝ f.1 x.2.1 x.2.2 +
      (x.1 ^ 2 / 2) • fderiv ℝ (fderiv ℝ f.1) x.2.1 x.2.2 x.2.2 +
      (x.1 ^ 3 / 6) • fderiv ℝ (fderiv ℝ (fderiv ℝ f.1)) x.2.1 x.2.2 x.2.2 x.2.2))
      =O[𝓝 0 ×ˢ (𝓝 s₀ ×ˢ 𝓝 u₀)] fun x => x.1 ^ 4 := by
  have hV : IsOpen (U ×ˢ (Set.univ : Set E)) := hU.prod isOpen_univ
  have m1 : Set.MapsTo (Prod.fst : E × E → E) (U ×ˢ (Set.univ : Set E)) U := fun x hx => hx.1
  have f1 : ContDiffOn ℝ ∞ (fderiv ℝ f.1) U := ContDiffOn.fderiv_of_isOpen f.2 hU (by simp)
  have f2 : ContDiffOn ℝ ∞ (fderiv ℝ (fderiv ℝ f.1)) U := ContDiffOn.fderiv_of_isOpen f1 hU (by simp)
  have f3 : ContDiffOn ℝ ∞ (fderiv ℝ (fderiv ℝ (fderiv ℝ f.1))) U := ContDiffOn.fderiv_of_isOpen f2 hU (by simp)
  have p1 : ContDiffOn ℝ ∞ (Prod.fst : E × E → E) (U ×ˢ (Set.univ : Set E)) := contDiff_fst.contDiffOn
  have p2 : ContDiffOn ℝ ∞ (Prod.snd : E × E → E) (U ×ˢ (Set.univ : Set E)) := contDiff_snd.contDiffOn
  let A : SmoothFn (U ×ˢ (Set.univ : Set E)) := ⟨fun x => (x.2, 0), p2.prodMk contDiffOn_const⟩
  let g0 : SmoothFn (U ×ˢ (Set.univ : Set E)) := ⟨fun x => (f.1 x.1, 0), (ContDiffOn.comp f.2 p1 m1).prodMk contDiffOn_const⟩
  let g1 : SmoothFn (U ×ˢ (Set.univ : Set E)) := ⟨fun x => (fderiv ℝ f.1 x.1 x.2, 0),
    ((ContDiffOn.comp f1 p1 m1).clm_apply p2).prodMk contDiffOn_const⟩
  let g2 : SmoothFn (U ×ˢ (Set.univ : Set E)) := ⟨fun x => (fderiv ℝ (fderiv ℝ f.1) x.1 x.2 x.2, 0),
    (((ContDiffOn.comp f2 p1 m1).clm_apply p2).clm_apply p2).prodMk contDiffOn_const⟩
  let g3 : SmoothFn (U ×ˢ (Set.univ : Set E)) := ⟨fun x => (fderiv ℝ (fderiv ℝ (fderiv ℝ f.1)) x.1 x.2 x.2 x.2, 0),
    ((((ContDiffOn.comp f3 p1 m1).clm_apply p2).clm_apply p2).clm_apply p2).prodMk contDiffOn_const⟩
  have line : ∀ x : E × E, HasDerivAt (fun t : ℝ => (x.1 + t • x.2, x.2)) ((x.2, 0) : E × E) 0 := fun x => by
    have h1 : HasDerivAt (fun t : ℝ => x.1 + t • x.2) x.2 0 := by
      simpa using ((hasDerivAt_id (0 : ℝ)).smul_const x.2).const_add x.1
    exact h1.prodMk (hasDerivAt_const 0 x.2)
  -- derivative of a smooth function along `A`, from a one-dimensional derivative
  have lieA : ∀ g g' : SmoothFn (U ×ˢ (Set.univ : Set E)), (∀ x : E × E, x.1 ∈ U →
      HasDerivAt (fun t : ℝ => g.1 (x.1 + t • x.2, x.2)) (g'.1 x) 0) →
      ∀ x ∈ U ×ˢ (Set.univ : Set E), (lie hV A g).1 x = g'.1 x := by
    intro g g' h x hx
    rw [lie_apply hV A g hx]
    have e : (x.1 + (0 : ℝ) • x.2, x.2) = x := by simp
    have hd : HasFDerivAt g.1 (fderiv ℝ g.1 x) ((fun t : ℝ => (x.1 + t • x.2, x.2)) 0) := by
      show HasFDerivAt g.1 (fderiv ℝ g.1 x) (x.1 + (0 : ℝ) • x.2, x.2)
      rw [e]; exact (diff_at hV g hx).hasFDerivAt
    exact (hd.comp_hasDerivAt 0 (line x)).unique (h x hx.1)
  have along : ∀ {F : Type _} [NormedAddCommGroup F] [NormedSpace ℝ F] (k : E → F), ContDiffOn ℝ ∞ k U → ∀ x : E × E, x.1 ∈ U →
      HasDerivAt (fun t : ℝ => k (x.1 + t • x.2)) (fderiv ℝ k x.1 x.2) 0 := by
    intro F _ _ k hk x hx
    have e : x.1 + (0 : ℝ) • x.2 = x.1 := by simp
    have hd : HasFDerivAt k (fderiv ℝ k x.1) ((fun t : ℝ => x.1 + t • x.2) 0) := by
      show HasFDerivAt k (fderiv ℝ k x.1) (x.1 + (0 : ℝ) • x.2)
      rw [e]
      exact ((hk.contDiffAt (hU.mem_nhds hx)).differentiableAt (by simp)).hasFDerivAt
    have h1 : HasDerivAt (fun t : ℝ => x.1 + t • x.2) x.2 0 := by
      simpa using ((hasDerivAt_id (0 : ℝ)).smul_const x.2).const_add x.1
    exact hd.comp_hasDerivAt 0 h1
  have l0 : ∀ x ∈ U ×ˢ (Set.univ : Set E), (lie hV A g0).1 x = g1.1 x := lieA g0 g1 fun x hx =>
    (along f.1 f.2 x hx).prodMk (hasDerivAt_const 0 0)
  have l1 : ∀ x ∈ U ×ˢ (Set.univ : Set E), (lie hV A g1).1 x = g2.1 x := lieA g1 g2 fun x hx => by
    have h := (along _ f1 x hx).clm_apply (hasDerivAt_const 0 x.2)
    simp only [map_zero, add_zero] at h
    exact h.prodMk (hasDerivAt_const 0 0)
  have l2 : ∀ x ∈ U ×ˢ (Set.univ : Set E), (lie hV A g2).1 x = g3.1 x := lieA g2 g3 fun x hx => by
    have h := ((along _ f2 x hx).clm_apply (hasDerivAt_const 0 x.2)).clm_apply (hasDerivAt_const 0 x.2)
    simp only [map_zero, add_zero] at h
    exact h.prodMk (hasDerivAt_const 0 0)
  -- `lie` only depends on the values on the open set
  have lcongr : ∀ g g' : SmoothFn (U ×ˢ (Set.univ : Set E)), (∀ x ∈ U ×ˢ (Set.univ : Set E), g.1 x = g'.1 x) →
      ∀ x ∈ U ×ˢ (Set.univ : Set E), (lie hV A g).1 x = (lie hV A g').1 x := by
    intro g g' h x hx
    rw [lie_apply hV A g hx, lie_apply hV A g' hx]
    have : g.1 =ᶠ[𝓝 x] g'.1 := Filter.eventually_of_mem (hV.mem_nhds hx) h
    rw [this.fderiv_eq]
  have c2 : ∀ x ∈ U ×ˢ (Set.univ : Set E), (lie hV A (lie hV A g0)).1 x = g2.1 x := fun x hx =>
    (lcongr _ g1 l0 x hx).trans (l1 x hx)
  have c3 : ∀ x ∈ U ×ˢ (Set.univ : Set E), (lie hV A (lie hV A (lie hV A g0))).1 x = g3.1 x := fun x hx =>
    (lcongr _ g2 c2 x hx).trans (l2 x hx)
  have tl : Filter.Tendsto (fun x : ℝ × E × E => (x.2.1 + x.1 • x.2.2, x.2.2)) (𝓝 0 ×ˢ 𝓝 (s₀, u₀)) (𝓝 (s₀, u₀)) := by
    have hc : Continuous (fun x : ℝ × E × E => (x.2.1 + x.1 • x.2.2, x.2.2)) := by fun_prop
    have := hc.tendsto (0, s₀, u₀)
    simp only [zero_smul, add_zero] at this
    rwa [nhds_prod_eq] at this
  have main := expand_along hV A (𝓝 (s₀, u₀)) (fun t x => (x.1 + t • x.2, x.2)) id (s₀ := (s₀, u₀)) ⟨hs, trivial⟩ tl
    (Filter.Eventually.of_forall fun a => by simp) (hV.mem_nhds ⟨hs, trivial⟩)
    (Filter.Eventually.of_forall fun x => by
      have h1 : HasDerivAt (fun t : ℝ => x.2.1 + t • x.2.2) x.2.2 x.1 := by
        simpa using ((hasDerivAt_id x.1).smul_const x.2.2).const_add x.2.1
      exact h1.prodMk (hasDerivAt_const _ x.2.2)) 4 g0
  rw [nhds_prod_eq] at main
  have hmem : ∀ᶠ x in 𝓝 (0 : ℝ) ×ˢ (𝓝 s₀ ×ˢ 𝓝 u₀), x.2 ∈ U ×ˢ (Set.univ : Set E) := by
    rw [← nhds_prod_eq]
    exact Filter.tendsto_snd.eventually (hV.mem_nhds ⟨hs, trivial⟩)
  refine IsBigO.trans (IsBigO.of_bound 1 ?_) main
  filter_upwards [hmem] with x hx
  rw [one_mul]
  refine le_trans (le_of_eq ?_) (norm_fst_le _)
  congr 1
  simp only [sum_range_succ, range_zero, sum_empty, zero_add, expSer, LinearMap.smul_apply, pow_succ, pow_zero, Module.End.mul_apply, one_mul, mul_one, id,
    Module.End.one_apply]
  have e0 : ∀ (c : ℝ) (g : SmoothFn (U ×ˢ (Set.univ : Set E))), (c • g).1 x.2 = c • g.1 x.2 := fun _ _ => rfl
  simp only [e0, l0 _ hx, c2 _ hx, c3 _ hx]
  show _ = f.1 _ - (_ + _ + _ + _)
  simp [g0, g1, g2, g3, Nat.factorial, smul_smul, div_eq_mul_inv]

/-- If `u = p₀ + h p₁ + h² p₂ + O(h³)` then `f(s + h u)` expands accordingly. -/
theorem taylor_poly {U : Set E} (hU : IsOpen U) (f : SmoothFn U) {s₀ : E} (hs : s₀ ∈ U) (p₀ p₁ p₂ : E → E)
    (h0 : ContinuousAt p₀ s₀) (h1 : ContinuousAt p₁ s₀) (h2 : ContinuousAt p₂ s₀) (u : ℝ × E → E)
    (hu : (fun x : ℝ × E => u x - (p₀ x.2 + x.1 • p₁ x.2 + x.1 ^ 2 • p₂ x.2)) =O[𝓝 0 ×ˢ 𝓝 s₀] fun x => x.1 ^ 3) :
    (fun x : ℝ × E => f.1 (x.2 + x.1 • u x) - (f.1 x.2 + x.1 • fderiv ℝ f.1 x.2 (p₀ x.2) +
      x.1 ^ 2 • (fderiv ℝ f.1 x.2 (p₁ x.2) + (1 / 2 : ℝ) • fderiv ℝ (fderiv ℝ f.1) x.2 (p₀ x.2) (p₀ x.2)) +
      x.1 ^ 3 • (fderiv ℝ f.1 x.2 (p₂ x.2) + fderiv ℝ (fderiv ℝ f.1) x.2 (p₀ x.2) (p₁ x.2) +
        (1 / 6 : ℝ) • fderiv ℝ (fderiv ℝ (fderiv ℝ f.1)) x.2 (p₀ x.2) (p₀ x.2) (p₀ x.2))))
      =O[𝓝 0 ×ˢ 𝓝 s₀] fun x => x.1 ^ 4 := by
  have hl : Filter.Tendsto (fun x : ℝ × E => x.1) (𝓝 0 ×ˢ 𝓝 s₀) (𝓝 0) := Filter.tendsto_fst
  have hl2 : Filter.Tendsto (fun x : ℝ × E => x.2) (𝓝 0 ×ˢ 𝓝 s₀) (𝓝 s₀) := Filter.tendsto_snd
  have f1 : ContDiffOn ℝ ∞ (fderiv ℝ f.1) U := ContDiffOn.fderiv_of_isOpen f.2 hU (by simp)
  have f2 : ContDiffOn ℝ ∞ (fderiv ℝ (fderiv ℝ f.1)) U := ContDiffOn.fderiv_of_isOpen f1 hU (by simp)
  have f3 : ContDiffOn ℝ ∞ (fderiv ℝ (fderiv ℝ (fderiv ℝ f.1))) U := ContDiffOn.fderiv_of_isOpen f2 hU (by simp)
  have b1 := O_one (((f1.contDiffAt (hU.mem_nhds hs)).continuousAt).tendsto.comp hl2)
  have b2 := O_one (((f2.contDiffAt (hU.mem_nhds hs)).continuousAt).tendsto.comp hl2)
  have b3 := O_one (((f3.contDiffAt (hU.mem_nhds hs)).continuousAt).tendsto.comp hl2)
  have c0 := O_one (h0.tendsto.comp hl2)
  have c1 := O_one (h1.tendsto.comp hl2)
  have c2 := O_one (h2.tendsto.comp hl2)
  simp only [Function.comp_def] at b1 b2 b3 c0 c1 c2
  -- lower order versions of the expansion of `u`
  have u1 : (fun x : ℝ × E => u x - p₀ x.2) =O[𝓝 0 ×ˢ 𝓝 s₀] fun x => x.1 ^ 1 := by
    have h := ((O_mono hl (m := 1) (by norm_num) hu).add (O_pow 1 c1)).add (O_mono hl (m := 1) (by norm_num) (O_pow 2 c2))
    refine h.congr_left fun x => ?_
    rw [pow_one]; abel
  have u2 : (fun x : ℝ × E => u x - (p₀ x.2 + x.1 • p₁ x.2)) =O[𝓝 0 ×ˢ 𝓝 s₀] fun x => x.1 ^ 2 := by
    have h := (O_mono hl (m := 2) (by norm_num) hu).add (O_pow 2 c2)
    refine h.congr_left fun x => ?_
    abel
  have ulim : Filter.Tendsto u (𝓝 0 ×ˢ 𝓝 s₀) (𝓝 (p₀ s₀)) := by
    have h3 : Filter.Tendsto (fun x : ℝ × E => u x - p₀ x.2) (𝓝 0 ×ˢ 𝓝 s₀) (𝓝 0) :=
      u1.trans_tendsto (by simpa using hl.pow 1)
    have h4 := h3.add (h0.tendsto.comp hl2)
    simpa using h4
  have cu := O_one ulim
  -- Taylor
  have T := (taylor_dir hU f hs (p₀ s₀)).comp_tendsto (k := fun x : ℝ × E => (x.1, x.2, u x)) (hl.prodMk (hl2.prodMk ulim))
  simp only [Function.comp_def] at T
  -- the three derivatives
  have d1 : (fun x : ℝ × E => x.1 ^ 1 • (fderiv ℝ f.1 x.2 (u x - (p₀ x.2 + x.1 • p₁ x.2 + x.1 ^ 2 • p₂ x.2))))
      =O[𝓝 0 ×ˢ 𝓝 s₀] fun x => x.1 ^ 4 := by
    have h := O_clm b1 hu
    simp only [pow_zero, one_mul] at h
    exact O_pow 1 h
  have d2a : (fun x : ℝ × E => x.1 ^ 2 • (fderiv ℝ (fderiv ℝ f.1) x.2 (u x - (p₀ x.2 + x.1 • p₁ x.2)) (u x)))
      =O[𝓝 0 ×ˢ 𝓝 s₀] fun x => x.1 ^ 4 := by
    have h := O_clm (O_clm b2 u2) cu
    simp only [pow_zero, one_mul, mul_one] at h
    exact O_pow 2 h
  have cv : (fun x : ℝ × E => p₀ x.2 + x.1 • p₁ x.2) =O[𝓝 0 ×ˢ 𝓝 s₀] fun x => x.1 ^ 0 := by
    have h := O_mono hl (m := 0) (by norm_num) (O_pow 1 c1)
    simp only [pow_one] at h
    exact c0.add h
  have d2b : (fun x : ℝ × E => x.1 ^ 2 • (fderiv ℝ (fderiv ℝ f.1) x.2 (p₀ x.2 + x.1 • p₁ x.2) (u x - (p₀ x.2 + x.1 • p₁ x.2))))
      =O[𝓝 0 ×ˢ 𝓝 s₀] fun x => x.1 ^ 4 := by
    have h := O_clm (O_clm b2 cv) u2
    simp only [pow_zero, one_mul] at h
    exact O_pow 2 h
  have d2c : (fun x : ℝ × E => x.1 ^ 4 • (fderiv ℝ (fderiv ℝ f.1) x.2 (p₁ x.2) (p₁ x.2)))
      =O[𝓝 0 ×ˢ 𝓝 s₀] fun x => x.1 ^ 4 := by
    have h := O_clm (O_clm b2 c1) c1
    simp only [pow_zero, one_mul] at h
    exact O_pow (n := 0) 4 (by simpa using h)
  have d3a : (fun x : ℝ × E => x.1 ^ 3 • (fderiv ℝ (fderiv ℝ (fderiv ℝ f.1)) x.2 (u x - p₀ x.2) (u x) (u x)))
      =O[𝓝 0 ×ˢ 𝓝 s₀] fun x => x.1 ^ 4 := by
    have h := O_clm (O_clm (O_clm b3 u1) cu) cu
    simp only [pow_zero, one_mul, mul_one] at h
    exact O_pow 3 h
  have d3b : (fun x : ℝ × E => x.1 ^ 3 • (fderiv ℝ (fderiv ℝ (fderiv ℝ f.1)) x.2 (p₀ x.2) (u x - p₀ x.2) (u x)))
      =O[𝓝 0 ×ˢ 𝓝 s₀] fun x => x.1 ^ 4 := by
    have h := O_clm (O_clm (O_clm b3 c0) u1) cu
    simp only [pow_zero, one_mul, mul_one] at h
    exact O_pow 3 h
  have d3c : (fun x : ℝ × E => x.1 ^ 3 • (fderiv ℝ (fderiv ℝ (fderiv ℝ f.1)) x.2 (p₀ x.2) (p₀ x.2) (u x - p₀ x.2)))
      =O[𝓝 0 ×ˢ 𝓝 s₀] fun x => x.1 ^ 4 := by
    have h := O_clm (O_clm (O_clm b3 c0) c0) u1
    simp only [pow_zero, one_mul, mul_one] at h
    exact O_pow 3 h
  have hsym : ∀ᶠ x : ℝ × E in 𝓝 0 ×ˢ 𝓝 s₀, ∀ v w, fderiv ℝ (fderiv ℝ f.1) x.2 v w = fderiv ℝ (fderiv ℝ f.1) x.2 w v := by
    filter_upwards [hl2.eventually (hU.mem_nhds hs)] with x hx v w
    exact ((f.2.contDiffAt (hU.mem_nhds hx)).isSymmSndFDerivAt (by simp; exact WithTop.coe_le_coe.mpr le_top)).eq v w
  have all := T.add (d1.add (((d2a.add (d2b.add d2c)).const_smul_left (1 / 2 : ℝ)).add
    ((d3a.add (d3b.add d3c)).const_smul_left (1 / 6 : ℝ))))
  refine all.congr' ?_ Filter.EventuallyEq.rfl
  filter_upwards [hsym] with x hx
  generalize f.1 (x.2 + x.1 • u x) = A
  generalize f.1 x.2 = B
  simp only [Pi.smul_apply]
  generalize u x = U'
  generalize fderiv ℝ (fderiv ℝ (fderiv ℝ f.1)) x.2 = D3
  generalize fderiv ℝ (fderiv ℝ f.1) x.2 = D2 at hx ⊢
  generalize fderiv ℝ f.1 x.2 = D1
  simp only [map_add, map_sub, map_smul, add_apply, sub_apply, smul_apply, hx (p₁ x.2) (p₀ x.2), smul_add, smul_sub, smul_smul]
  module

/-! ## the Runge–Kutta step -/

section rk
variable {U : Set E} (hU : IsOpen U) (f : SmoothFn U)

/-- fourth-order Taylor polynomial of the solutions of `s' = f(s)` -/
noncomputable def rkTaylor (f : E → E) (h : ℝ) (s : E) : E :=
  s + h • f s + (h ^ 2 / 2) • fderiv ℝ f s (f s) +
    (h ^ 3 / 6) • (fderiv ℝ (fderiv ℝ f) s (f s) (f s) + fderiv ℝ f s (fderiv ℝ f s (f s))) +
    (h ^ 4 / 24) • (fderiv ℝ (fderiv ℝ (fderiv ℝ f)) s (f s) (f s) (f s) + (3 : ℝ) • fderiv ℝ (fderiv ℝ f) s (f s) (fderiv ℝ f s (f s)) +
      fderiv ℝ f s (fderiv ℝ (fderiv ℝ f) s (f s) (f s)) + fderiv ℝ f s (fderiv ℝ f s (fderiv ℝ f s (f s))))

include hU in
theorem rk4_expand {s₀ : E} (hs : s₀ ∈ U) :
    (fun x : ℝ × E => rk4 f.1 x.1 x.2 - rkTaylor f.1 x.1 x.2) =O[𝓝 0 ×ˢ 𝓝 s₀] fun x => x.1 ^ 5 := by
  have hl : Filter.Tendsto (fun x : ℝ × E => x.1) (𝓝 0 ×ˢ 𝓝 s₀) (𝓝 0) := Filter.tendsto_fst
  have hl2 : Filter.Tendsto (fun x : ℝ × E => x.2) (𝓝 0 ×ˢ 𝓝 s₀) (𝓝 s₀) := Filter.tendsto_snd
  have f1 : ContDiffOn ℝ ∞ (fderiv ℝ f.1) U := ContDiffOn.fderiv_of_isOpen f.2 hU (by simp)
  have f2 : ContDiffOn ℝ ∞ (fderiv ℝ (fderiv ℝ f.1)) U := ContDiffOn.fderiv_of_isOpen f1 hU (by simp)
  have f3 : ContDiffOn ℝ ∞ (fderiv ℝ (fderiv ℝ (fderiv ℝ f.1))) U := ContDiffOn.fderiv_of_isOpen f2 hU (by simp)
  have cont : ∀ {g : E → E}, ContDiffOn ℝ ∞ g U → ContinuousAt g s₀ := fun h => (h.contDiffAt (hU.mem_nhds hs)).continuousAt
  -- elementary differentials
  have ha : ContDiffOn ℝ ∞ (fun s => fderiv ℝ f.1 s (f.1 s)) U := f1.clm_apply f.2
  have hb : ContDiffOn ℝ ∞ (fun s => fderiv ℝ (fderiv ℝ f.1) s (f.1 s) (f.1 s)) U := (f2.clm_apply f.2).clm_apply f.2
  have hc : ContDiffOn ℝ ∞ (fun s => fderiv ℝ (fderiv ℝ (fderiv ℝ f.1)) s (f.1 s) (f.1 s) (f.1 s)) U :=
    ((f3.clm_apply f.2).clm_apply f.2).clm_apply f.2
  have hd : ContDiffOn ℝ ∞ (fun s => fderiv ℝ f.1 s (fderiv ℝ f.1 s (f.1 s))) U := f1.clm_apply ha
  have he : ContDiffOn ℝ ∞ (fun s => fderiv ℝ f.1 s (fderiv ℝ (fderiv ℝ f.1) s (f.1 s) (f.1 s))) U := f1.clm_apply hb
  have hf : ContDiffOn ℝ ∞ (fun s => fderiv ℝ (fderiv ℝ f.1) s (f.1 s) (fderiv ℝ f.1 s (f.1 s))) U := (f2.clm_apply f.2).clm_apply ha
  -- dropping a term of third order
  have drop : ∀ {u : ℝ × E → E} {p₀ p₁ p₂ p₃ : E → E}, ContinuousAt p₃ s₀ →
      (fun x : ℝ × E => u x - (p₀ x.2 + x.1 • p₁ x.2 + x.1 ^ 2 • p₂ x.2 + x.1 ^ 3 • p₃ x.2)) =O[𝓝 0 ×ˢ 𝓝 s₀] (fun x => x.1 ^ 4) →
      ∀ c : ℝ, (fun x : ℝ × E => c • u x - (c • p₀ x.2 + x.1 • (c • p₁ x.2) + x.1 ^ 2 • (c • p₂ x.2))) =O[𝓝 0 ×ˢ 𝓝 s₀] fun x => x.1 ^ 3 := by
    intro u p₀ p₁ p₂ p₃ h3 h c
    have hp := O_one (h3.tendsto.comp hl2)
    simp only [Function.comp_def] at hp
    have := ((O_mono hl (m := 3) (by norm_num) h).add (O_pow 3 hp)).const_smul_left c
    refine this.congr_left fun x => ?_
    simp only [Pi.smul_apply]
    module
  -- k1
  have k1 := taylor_poly hU f hs (fun s => (1 / 2 : ℝ) • f.1 s) (fun _ => 0) (fun _ => 0) ((cont f.2).const_smul _) continuousAt_const
    continuousAt_const (fun x => (1 / 2 : ℝ) • f.1 x.2) (by simpa using isBigO_zero _ _)
  have k1' := drop (u := fun x : ℝ × E => f.1 (x.2 + x.1 • ((1 / 2 : ℝ) • f.1 x.2))) (p₀ := f.1)
    (p₁ := fun s => (1 / 2 : ℝ) • fderiv ℝ f.1 s (f.1 s)) (p₂ := fun s => (1 / 8 : ℝ) • fderiv ℝ (fderiv ℝ f.1) s (f.1 s) (f.1 s))
    (p₃ := fun s => (1 / 48 : ℝ) • fderiv ℝ (fderiv ℝ (fderiv ℝ f.1)) s (f.1 s) (f.1 s) (f.1 s)) ((cont hc).const_smul _)
    (k1.congr_left fun x => by
      simp only [map_smul, smul_apply, map_zero]
      module) (1 / 2)
  have k2 := taylor_poly hU f hs _ _ _ ((cont f.2).const_smul _) (((cont ha).const_smul _).const_smul _) (((cont hb).const_smul _).const_smul _) _ k1'
  have k2' := drop (u := fun x : ℝ × E => f.1 (x.2 + x.1 • ((1 / 2 : ℝ) • f.1 (x.2 + x.1 • ((1 / 2 : ℝ) • f.1 x.2))))) (p₀ := f.1)
    (p₁ := fun s => (1 / 2 : ℝ) • fderiv ℝ f.1 s (f.1 s))
    (p₂ := fun s => (1 / 4 : ℝ) • fderiv ℝ f.1 s (fderiv ℝ f.1 s (f.1 s)) + (1 / 8 : ℝ) • fderiv ℝ (fderiv ℝ f.1) s (f.1 s) (f.1 s))
    (p₃ := fun s => (1 / 16 : ℝ) • fderiv ℝ f.1 s (fderiv ℝ (fderiv ℝ f.1) s (f.1 s) (f.1 s)) +
      (1 / 8 : ℝ) • fderiv ℝ (fderiv ℝ f.1) s (f.1 s) (fderiv ℝ f.1 s (f.1 s)) +
      (1 / 48 : ℝ) • fderiv ℝ (fderiv ℝ (fderiv ℝ f.1)) s (f.1 s) (f.1 s) (f.1 s))
    ((((cont he).const_smul _).add ((cont hf).const_smul _)).add ((cont hc).const_smul _))
    (k2.congr_left fun x => by
      simp only [Pi.smul_apply, map_smul, smul_apply]
      module) 1
  have k3 := taylor_poly hU f hs _ _ _ ((cont f.2).const_smul _) (((cont ha).const_smul _).const_smul _)
    ((((cont hd).const_smul _).add ((cont hb).const_smul _)).const_smul _) _ k2'
  have all := O_pow 1 ((((k1.const_smul_left (2 : ℝ)).add (k2.const_smul_left (2 : ℝ))).add k3).const_smul_left (1 / 6 : ℝ))
  refine all.congr_left fun x => ?_
  have e2 : ∀ v : E, (x.1 / 2) • v = x.1 • ((1 / 2 : ℝ) • v) := fun v => by module
  have e1 : ∀ v : E, x.1 • v = x.1 • ((1 : ℝ) • v) := fun v => by module
  have r : rk4 f.1 x.1 x.2 = x.2 + (x.1 / 6) • (f.1 x.2 + (2 : ℝ) • f.1 (x.2 + x.1 • ((1 / 2 : ℝ) • f.1 x.2)) +
      (2 : ℝ) • f.1 (x.2 + x.1 • ((1 / 2 : ℝ) • f.1 (x.2 + x.1 • ((1 / 2 : ℝ) • f.1 x.2)))) +
      f.1 (x.2 + x.1 • ((1 : ℝ) • f.1 (x.2 + x.1 • ((1 / 2 : ℝ) • f.1 (x.2 + x.1 • ((1 / 2 : ℝ) • f.1 x.2))))))) := by
    unfold rk4
    simp only [e2, one_smul]
  rw [r, rkTaylor]
  simp only [Pi.smul_apply]
  generalize f.1 (x.2 + x.1 • ((1 : ℝ) • f.1 (x.2 + x.1 • ((1 / 2 : ℝ) • f.1 (x.2 + x.1 • ((1 / 2 : ℝ) • f.1 x.2)))))) = K3
  generalize f.1 (x.2 + x.1 • ((1 / 2 : ℝ) • f.1 (x.2 + x.1 • ((1 / 2 : ℝ) • f.1 x.2)))) = K2
  generalize f.1 (x.2 + x.1 • ((1 / 2 : ℝ) • f.1 x.2)) = K1
  simp only [Pi.smul_apply, Pi.add_apply, map_smul, map_add, smul_apply, map_zero]
  module

/-- The exponential series of the Lie derivative, applied to the identity, is the Taylor polynomial. -/
theorem expSer_taylor {s : E} (hs : s ∈ U) (h : ℝ) :
    ∑ k ∈ range 5, h ^ k • (expSer 1 (lie hU f) k (⟨id, contDiff_id.contDiffOn⟩ : SmoothFn U)).1 s = rkTaylor f.1 h s := by
  have f1 : ContDiffOn ℝ ∞ (fderiv ℝ f.1) U := ContDiffOn.fderiv_of_isOpen f.2 hU (by simp)
  have f2 : ContDiffOn ℝ ∞ (fderiv ℝ (fderiv ℝ f.1)) U := ContDiffOn.fderiv_of_isOpen f1 hU (by simp)
  have dif : ∀ {F : Type _} [NormedAddCommGroup F] [NormedSpace ℝ F] {g : E → F}, ContDiffOn ℝ ∞ g U → ∀ {s}, s ∈ U →
      HasFDerivAt g (fderiv ℝ g s) s := fun h s hs =>
    ((h.contDiffAt (hU.mem_nhds hs)).differentiableAt (by simp)).hasFDerivAt
  have lcongr : ∀ (g : SmoothFn U) (g' : E → E), (∀ x ∈ U, g.1 x = g' x) → ∀ x ∈ U, (lie hU f g).1 x = fderiv ℝ g' x (f.1 x) := by
    intro g g' h x hx
    rw [lie_apply hU f g hx]
    have : g.1 =ᶠ[𝓝 x] g' := Filter.eventually_of_mem (hU.mem_nhds hx) h
    rw [this.fderiv_eq]
  have l1 : ∀ x ∈ U, (lie hU f (⟨id, contDiff_id.contDiffOn⟩ : SmoothFn U)).1 x = f.1 x := by
    intro x hx
    rw [lie_apply hU f _ hx, fderiv_id]; rfl
  have l2 : ∀ x ∈ U, (lie hU f (lie hU f (⟨id, contDiff_id.contDiffOn⟩ : SmoothFn U))).1 x = fderiv ℝ f.1 x (f.1 x) :=
    fun x hx => lcongr _ _ l1 x hx
  have d3 : ∀ x ∈ U, fderiv ℝ (fun s => fderiv ℝ f.1 s (f.1 s)) x (f.1 x) =
      fderiv ℝ (fderiv ℝ f.1) x (f.1 x) (f.1 x) + fderiv ℝ f.1 x (fderiv ℝ f.1 x (f.1 x)) := by
    intro x hx
    rw [((dif f1 hx).clm_apply (dif f.2 hx)).fderiv]
    simp [add_comm]
  have l3 : ∀ x ∈ U, (lie hU f (lie hU f (lie hU f (⟨id, contDiff_id.contDiffOn⟩ : SmoothFn U)))).1 x =
      fderiv ℝ (fderiv ℝ f.1) x (f.1 x) (f.1 x) + fderiv ℝ f.1 x (fderiv ℝ f.1 x (f.1 x)) :=
    fun x hx => (lcongr _ _ l2 x hx).trans (d3 x hx)
  have l4 : ∀ x ∈ U, (lie hU f (lie hU f (lie hU f (lie hU f (⟨id, contDiff_id.contDiffOn⟩ : SmoothFn U))))).1 x =
      fderiv ℝ (fderiv ℝ (fderiv ℝ f.1)) x (f.1 x) (f.1 x) (f.1 x) + (3 : ℝ) • fderiv ℝ (fderiv ℝ f.1) x (f.1 x) (fderiv ℝ f.1 x (f.1 x)) +
      fderiv ℝ f.1 x (fderiv ℝ (fderiv ℝ f.1) x (f.1 x) (f.1 x)) + fderiv ℝ f.1 x (fderiv ℝ f.1 x (fderiv ℝ f.1 x (f.1 x))) := by
    intro x hx
    rw [lcongr _ _ l3 x hx]
    have ha := (dif f1 hx).clm_apply (dif f.2 hx)
    have hb := ((dif f2 hx).clm_apply (dif f.2 hx)).clm_apply (dif f.2 hx)
    have hd := (dif f1 hx).clm_apply ha
    rw [(hb.fun_add hd).fderiv]
    have hsym := ((f.2.contDiffAt (hU.mem_nhds hx)).isSymmSndFDerivAt (by simp; exact WithTop.coe_le_coe.mpr le_top)).eq
      (fderiv ℝ f.1 x (f.1 x)) (f.1 x)
    simp only [add_apply, ContinuousLinearMap.comp_apply, ContinuousLinearMap.flip_apply, map_add]
    rw [hsym]
    module
  have e0 : ∀ (c : ℝ) (g : SmoothFn U), (c • g).1 s = c • g.1 s := fun _ _ => rfl
  simp only [sum_range_succ, range_zero, sum_empty, zero_add, expSer, LinearMap.smul_apply, pow_succ, pow_zero,
    Module.End.mul_apply, one_mul, mul_one, Module.End.one_apply, e0, l1 s hs, l2 s hs, l3 s hs, l4 s hs, rkTaylor, id]
  simp [Nat.factorial]
  module

include hU in
theorem rk4_near {s₀ : E} (hs : s₀ ∈ U) : ContDiffAt ℝ ∞ (fun x : ℝ × E => f.1 x.2 + (2 : ℝ) • f.1 (x.2 + (x.1 / 2) • f.1 x.2) +
    (2 : ℝ) • f.1 (x.2 + (x.1 / 2) • f.1 (x.2 + (x.1 / 2) • f.1 x.2)) +
    f.1 (x.2 + x.1 • f.1 (x.2 + (x.1 / 2) • f.1 (x.2 + (x.1 / 2) • f.1 x.2)))) (0, s₀) := by
  have hf : ContDiffAt ℝ ∞ f.1 s₀ := smooth_at hU f hs
  have p1 : ContDiffAt ℝ ∞ (fun x : ℝ × E => x.1) (0, s₀) := contDiffAt_fst
  have p1' : ContDiffAt ℝ ∞ (fun x : ℝ × E => x.1 / 2) (0, s₀) := p1.div_const 2
  have p2 : ContDiffAt ℝ ∞ (fun x : ℝ × E => x.2) (0, s₀) := contDiffAt_snd
  have st : ∀ (c : ℝ × E → ℝ) (k : ℝ × E → E), c (0, s₀) = 0 → ContDiffAt ℝ ∞ c (0, s₀) → ContDiffAt ℝ ∞ k (0, s₀) →
      ContDiffAt ℝ ∞ (fun x : ℝ × E => f.1 (x.2 + c x • k x)) (0, s₀) := by
    intro c k hc h1 h2
    refine ContDiffAt.comp (g := f.1) (0, s₀) ?_ (p2.add (h1.smul h2))
    simpa [hc] using hf
  have k0 : ContDiffAt ℝ ∞ (fun x : ℝ × E => f.1 x.2) (0, s₀) := ContDiffAt.comp (g := f.1) (0, s₀) hf p2
  have k1 := st (fun x => x.1 / 2) _ (by simp) p1' k0
  have k2 := st (fun x => x.1 / 2) _ (by simp) p1' k1
  have k3 := st (fun x => x.1) _ rfl p1 k2
  exact ((k0.add (contDiffAt_const.smul k1)).add (contDiffAt_const.smul k2)).add k3

include hU in
theorem rk4_locLip : LocLip U (rk4 f.1) := by
  intro s₀ hs
  obtain ⟨K, t, ht, hK⟩ := ((rk4_near hU f hs).of_le (m := 1) (by norm_cast)).exists_lipschitzOnWith
  refine ⟨K / 6, by positivity, ?_⟩
  rw [nhds_prod_eq] at ht
  have t1 : Filter.Tendsto (fun x : ℝ × E × E => (x.1, x.2.1)) (𝓝 0 ×ˢ (𝓝 s₀ ×ˢ 𝓝 s₀)) (𝓝 0 ×ˢ 𝓝 s₀) :=
    Filter.tendsto_fst.prodMk (Filter.tendsto_fst.comp Filter.tendsto_snd)
  have t2 : Filter.Tendsto (fun x : ℝ × E × E => (x.1, x.2.2)) (𝓝 0 ×ˢ (𝓝 s₀ ×ˢ 𝓝 s₀)) (𝓝 0 ×ˢ 𝓝 s₀) :=
    Filter.tendsto_fst.prodMk (Filter.tendsto_snd.comp Filter.tendsto_snd)
  filter_upwards [t1.eventually ht, t2.eventually ht] with x h1 h2
  have h3 := hK.norm_sub_le h1 h2
  have h4 : ‖((x.1, x.2.1) : ℝ × E) - (x.1, x.2.2)‖ = ‖x.2.1 - x.2.2‖ := by
    rw [Prod.mk_sub_mk, sub_self, Prod.norm_mk, norm_zero]
    exact max_eq_right (norm_nonneg _)
  rw [h4] at h3
  unfold rk4
  simp only at h3 ⊢
  generalize f.1 x.2.1 + (2 : ℝ) • f.1 (x.2.1 + (x.1 / 2) • f.1 x.2.1) + (2 : ℝ) • f.1 (x.2.1 + (x.1 / 2) • f.1 (x.2.1 + (x.1 / 2) • f.1 x.2.1)) +
    f.1 (x.2.1 + x.1 • f.1 (x.2.1 + (x.1 / 2) • f.1 (x.2.1 + (x.1 / 2) • f.1 x.2.1))) = A at h3 ⊢
  generalize f.1 x.2.2 + (2 : ℝ) • f.1 (x.2.2 + (x.1 / 2) • f.1 x.2.2) + (2 : ℝ) • f.1 (x.2.2 + (x.1 / 2) • f.1 (x.2.2 + (x.1 / 2) • f.1 x.2.2)) +
    f.1 (x.2.2 + x.1 • f.1 (x.2.2 + (x.1 / 2) • f.1 (x.2.2 + (x.1 / 2) • f.1 x.2.2))) = B at h3 ⊢
  rw [show x.2.1 + (x.1 / 6) • A - (x.2.2 + (x.1 / 6) • B) = (x.2.1 - x.2.2) + (x.1 / 6) • (A - B) by rw [smul_sub]; abel]
  calc _ ≤ ‖x.2.1 - x.2.2‖ + ‖(x.1 / 6) • (A - B)‖ := norm_add_le _ _
    _ = ‖x.2.1 - x.2.2‖ + |x.1| / 6 * ‖A - B‖ := by rw [norm_smul, Real.norm_eq_abs, abs_div, abs_of_pos (by norm_num : (0 : ℝ) < 6)]
    _ ≤ ‖x.2.1 - x.2.2‖ + |x.1| / 6 * (K * ‖x.2.1 - x.2.2‖) := by gcongr
    _ = _ := by ring

include hU in
/-- One step near a solution. -/
theorem rk4_oneStep (y : ℝ → E) (t₀ : ℝ) (hy : y t₀ ∈ U) (hd : ∀ᶠ t in 𝓝 t₀, HasDerivAt y (f.1 (y t)) t) :
    ∃ V ∈ 𝓝 t₀, OneStep (fun _ _ => True) (rk4 f.1) y 5 V := by
  have hyc : ContinuousAt y t₀ := hd.self_of_nhds.continuousAt
  have tsum : Filter.Tendsto (fun x : ℝ × ℝ => x.2 + x.1) (𝓝 0 ×ˢ 𝓝 t₀) (𝓝 t₀) := by
    have h := (Filter.tendsto_snd (f := 𝓝 (0 : ℝ)) (g := 𝓝 t₀)).add (Filter.tendsto_fst (f := 𝓝 (0 : ℝ)) (g := 𝓝 t₀))
    rwa [add_zero] at h
  have h1 := expand_along hU f (𝓝 t₀) (fun t a => y (a + t)) y hy (hyc.tendsto.comp tsum)
    (Filter.Eventually.of_forall fun a => by simp) (hyc.eventually (hU.mem_nhds hy))
    (by
      filter_upwards [tsum.eventually hd] with x hx
      exact HasDerivAt.comp_const_add x.2 x.1 hx) 5 ⟨id, contDiff_id.contDiffOn⟩
  have tp : Filter.Tendsto (fun x : ℝ × ℝ => (x.1, y x.2)) (𝓝 0 ×ˢ 𝓝 t₀) (𝓝 0 ×ˢ 𝓝 (y t₀)) :=
    Filter.tendsto_fst.prodMk (hyc.tendsto.comp Filter.tendsto_snd)
  have h2 := (rk4_expand hU f hy).comp_tendsto tp
  obtain ⟨C, hC0, hC⟩ := (h2.sub h1).exists_nonneg
  have hC' := hC.bound
  have hm : ∀ᶠ x : ℝ × ℝ in 𝓝 0 ×ˢ 𝓝 t₀, y x.2 ∈ U := (hyc.tendsto.comp Filter.tendsto_snd).eventually (hU.mem_nhds hy)
  obtain ⟨L, hL0, hL'⟩ := rk4_locLip hU f (y t₀) hy
  let F : Filter (ℝ × ℝ × E) := 𝓝 (0 : ℝ) ×ˢ (𝓝 t₀ ×ˢ 𝓝 (y t₀))
  have f1 : Filter.Tendsto (fun x : ℝ × ℝ × E => x.1) F (𝓝 0) := Filter.tendsto_fst
  have f2 : Filter.Tendsto (fun x : ℝ × ℝ × E => x.2.1) F (𝓝 t₀) := Filter.tendsto_fst.comp Filter.tendsto_snd
  have f3 : Filter.Tendsto (fun x : ℝ × ℝ × E => x.2.2) F (𝓝 (y t₀)) := Filter.tendsto_snd.comp Filter.tendsto_snd
  have ev : ∀ᶠ x in F, ‖rk4 f.1 x.1 x.2.2 - y (x.2.1 + x.1)‖ ≤ (1 + L * |x.1|) * ‖x.2.2 - y x.2.1‖ + C * |x.1| ^ 5 := by
    filter_upwards [(f1.prodMk f2).eventually hC', (f1.prodMk f2).eventually hm,
      (f1.prodMk (f3.prodMk (hyc.tendsto.comp f2))).eventually hL'] with x a2 a4 a3
    simp only [Function.comp, id] at a2 a3
    have e := expSer_taylor hU f a4 x.1
    rw [e, sub_sub_sub_cancel_right, norm_pow, Real.norm_eq_abs] at a2
    calc _ ≤ ‖rk4 f.1 x.1 x.2.2 - rk4 f.1 x.1 (y x.2.1)‖ + ‖rk4 f.1 x.1 (y x.2.1) - y (x.2.1 + x.1)‖ :=
          norm_sub_le_norm_sub_add_norm_sub _ _ _
      _ ≤ _ := add_le_add a3 a2
  obtain ⟨pa, hpa, pb, hpb, hall⟩ := Filter.eventually_prod_iff.mp ev
  obtain ⟨pc, hpc, pd, hpd, hall2⟩ := Filter.eventually_prod_iff.mp hpb
  obtain ⟨δ₀, hδ, hδ'⟩ := Metric.eventually_nhds_iff.mp hpa
  obtain ⟨r, hr, hr'⟩ := Metric.eventually_nhds_iff.mp hpd
  refine ⟨{t | pc t ∧ dist (y t) (y t₀) < r / 2}, hpc.and (hyc.eventually (Metric.ball_mem_nhds _ (half_pos hr))), C, L, r / 2, δ₀,
    hC0, hL0, half_pos hr, hδ, ?_⟩
  rintro t ⟨ht1, ht2⟩ δ hδ1 s hs
  refine ⟨trivial, hall (hδ' (by rwa [Real.dist_eq, sub_zero])) (hall2 ht1 (hr' ?_))⟩
  have := dist_triangle s (y t) (y t₀)
  rw [dist_eq_norm s (y t)] at this
  linarith

include hU in
/-- Global convergence of the Runge–Kutta method, with the fourth order. -/
theorem rk4_converges (y : ℝ → E) (a b : ℝ) (ha : a ≤ 0) (hb : 0 ≤ b) (hy : ∀ t ∈ Set.Icc a b, y t ∈ U)
    (hd : ∀ t ∈ Set.Icc a b, ∀ᶠ u in 𝓝 t, HasDerivAt y (f.1 (y u)) u) :
    (∃ C δ₀ : ℝ, 0 < δ₀ ∧ ∀ t ∈ Set.Icc a b, ∀ δ, |δ| < δ₀ → ‖rk4 f.1 δ (y t) - y (t + δ)‖ ≤ C * |δ| ^ 5) ∧
    ∃ K δ₀ : ℝ, 0 < δ₀ ∧ ∀ δ, |δ| < δ₀ → ∀ k : ℕ, k * δ ∈ Set.Icc a b →
      ‖(rk4 f.1 δ)^[k] (y 0) - y (k * δ)‖ ≤ K * |δ| ^ 4 := by
  have h1 := oneStep_compact isCompact_Icc fun t ht => rk4_oneStep hU f y t (hy t ht) (hd t ht)
  refine ⟨?_, ?_⟩
  · obtain ⟨C, L, ρ, δ₀, -, -, hρ, hδ₀, h⟩ := h1
    refine ⟨C, δ₀, hδ₀, fun t ht δ hδ => ?_⟩
    have := (h t ht δ hδ (y t) (by simpa using hρ)).2
    simpa using this
  · obtain ⟨K, δ₀, h2, h3⟩ := converges (m := 4) ha hb (by norm_num) h1
    exact ⟨K, δ₀, h2, fun δ hδ k hk => (h3 δ hδ k hk).1⟩

end rk

end Einpy.Flow
