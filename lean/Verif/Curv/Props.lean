import Verif.Curv.Example

/-!
# Properties of the curvature tensors: C13 – C22

Throughout, `m` is a metric object (covariant or contravariant) of the `n`-dimensional space with symmetric
invertible covariant metric `g` (`IsSpace m g`), and `coordD D m.syms n k` is the partial derivative along the
`k`-th coordinate.  The textbook formulas are in `Verif/Curv/Spec.lean`.
-/

set_option linter.unusedSectionVars false

namespace Einpy
open Classical

section
variable {R : Type*} [CommRing R] [Algebra ℚ R] {n : Nat} (D : String → Derivation ℚ R R)

/-! ## C13, C14 -/

/-- **C13**.  `ChristoffelSymbols.from_metric` returns `½ Σ g^{in}(∂_k g_nj + ∂_j g_nk − ∂_n g_jk)`, symmetric in
the last two indices. -/
theorem C13_christoffel_formula (m : MetricV R) (g : Matrix (Fin n) (Fin n) R) (h : IsSpace m g) :
    Returns (christoffelFromMetric D m) fun t =>
      t.kind = .christoffel ∧ t.config = ['u', 'l', 'l'] ∧ t.syms = m.syms ∧ t.parent = some m ∧
      t.arr.shape = [n, n, n] ∧
      (∀ i j k : Fin n, t.arr.get [(i : Nat), j, k] = (2 : ℚ)⁻¹ • ∑ a : Fin n, g⁻¹ i a *
        (coordD D m.syms n k (g a j) + coordD D m.syms n j (g a k) - coordD D m.syms n a (g j k))) ∧
      ∀ i j k : Fin n, t.arr.get [(i : Nat), j, k] = t.arr.get [(i : Nat), k, j] := by
  obtain ⟨a, e, hc, hv⟩ := christoffel_ok D m g h
  have hv := (comp_three _ _).mp hv
  exact ⟨_, e, rfl, rfl, rfl, rfl, hc, hv, fun i j k => by
    show a.get _ = a.get _
    rw [hv, hv]; exact Geo.christoffel_symm _ g h.symm i j k⟩

/-- **C13** (singular metric).  A metric whose matrix is not invertible makes `from_metric` raise. -/
theorem C13_christoffel_singular (m : MetricV R) (hsh : m.arr.shape = [n, n])
    (hc : m.config = ['l', 'l'] ∨ m.config = ['u', 'u']) (hsing : ¬ IsUnit (m.arr.toMatrix n).det) :
    Raises (christoffelFromMetric D m) .nonInvertible := by
  have hinv := NDArr.inv_singular m.arr hsh hsing
  unfold Raises christoffelFromMetric
  rcases hc with hc | hc
  · have h1 : m.lowerConfig = .ok m := by simp [MetricV.lowerConfig, hc]
    simp only [h1, bind, Except.bind, hinv]
  · have h1 : m.lowerConfig = .error .nonInvertible := by
      simp [MetricV.lowerConfig, hc, MetricV.inv, MetricV.changeConfig, hinv]
    simp only [h1, bind, Except.bind]

/-- **C14**.  `∂_k g_ij = Σ_t (Γ^t_ki g_tj + Γ^t_kj g_it)` for the Christoffel symbols the library returns. -/
theorem C14_metric_compatible (m : MetricV R) (g : Matrix (Fin n) (Fin n) R) (h : IsSpace m g) :
    Returns (christoffelFromMetric D m) fun t =>
      ∀ i j k : Fin n, coordD D m.syms n k (g i j) =
        ∑ a : Fin n, (t.arr.get [(a : Nat), k, i] * g a j + t.arr.get [(a : Nat), k, j] * g i a) := by
  obtain ⟨a, e, hc, hv⟩ := christoffel_ok D m g h
  have hv := (comp_three _ _).mp hv
  refine ⟨_, e, fun i j k => ?_⟩
  have := Geo.metric_compat (coordD D m.syms n) g h.symm h.reps.2.1 k i j
  rw [this]
  simp only [hv, Finset.sum_add_distrib]

/-! ## C15, C16 -/

/-- **C15**.  `RiemannCurvatureTensor.from_metric` is the documented expression in the Christoffel symbols returned
by `ChristoffelSymbols.from_metric`, antisymmetric in the last pair, with vanishing cyclic sum. -/
theorem C15_riemann_formula (m : MetricV R) (g : Matrix (Fin n) (Fin n) R) (h : IsSpace m g) :
    Returns (christoffelFromMetric D m) fun Γ => Returns (riemannFromMetric D m) fun t =>
      t.kind = .riemann ∧ t.config = ['u', 'l', 'l', 'l'] ∧ t.syms = m.syms ∧ t.parent = some m ∧
      t.arr.shape = [n, n, n, n] ∧
      (∀ i s r k : Fin n, t.arr.get [(i : Nat), s, r, k] =
        coordD D m.syms n r (Γ.arr.get [(i : Nat), s, k]) - coordD D m.syms n k (Γ.arr.get [(i : Nat), s, r])
        + ∑ p : Fin n, (Γ.arr.get [(p : Nat), s, k] * Γ.arr.get [(i : Nat), p, r]
            - Γ.arr.get [(p : Nat), s, r] * Γ.arr.get [(i : Nat), p, k])) ∧
      (∀ i s r k : Fin n, t.arr.get [(i : Nat), s, r, k] = - t.arr.get [(i : Nat), s, k, r]) ∧
      ∀ i s r k : Fin n, t.arr.get [(i : Nat), s, r, k] + t.arr.get [(i : Nat), r, k, s]
        + t.arr.get [(i : Nat), k, s, r] = 0 := by
  obtain ⟨a, e, hc, hv⟩ := christoffel_ok D m g h
  obtain ⟨b, e', hb, hb'⟩ := riemann_ok D m g h
  have hv := (comp_three _ _).mp hv
  have hw := (comp_four _ _).mp hb'
  refine ⟨_, e, _, e', rfl, rfl, rfl, rfl, hb, fun i s r k => ?_, fun i s r k => ?_, fun i s r k => ?_⟩
  · simp only [hw, hv]; rfl
  · simp only [hw]; exact Geo.riemann_antisymm _ g i s r k
  · simp only [hw]; exact Geo.bianchi1 _ g h.symm i s r k

/-- partial derivatives along the coordinates commute -/
def Commuting (syms : List String) (n : Nat) : Prop :=
  ∀ (i j : Fin n) (x : R), coordD D syms n i (coordD D syms n j x) = coordD D syms n j (coordD D syms n i x)

/-- **C16**.  `from_metric(m).change_config('llll')` is antisymmetric in each pair and symmetric under exchange of
the pairs. -/
theorem C16_lowered_riemann_symmetries (m : MetricV R) (g : Matrix (Fin n) (Fin n) R) (h : IsSpace m g)
    (hd : Commuting D m.syms n) :
    Returns (riemannFromMetric D m) fun t => Returns (t.changeConfig ['l', 'l', 'l', 'l'] none) fun u =>
      (∀ a s r k : Fin n, u.arr.get [(a : Nat), s, r, k] =
        ∑ i : Fin n, g a i * t.arr.get [(i : Nat), s, r, k]) ∧
      (∀ a s r k : Fin n, u.arr.get [(a : Nat), s, r, k] = - u.arr.get [(s : Nat), a, r, k]) ∧
      (∀ a s r k : Fin n, u.arr.get [(a : Nat), s, r, k] = - u.arr.get [(a : Nat), s, k, r]) ∧
      (∀ a s r k : Fin n, u.arr.get [(a : Nat), s, r, k] = u.arr.get [(r : Nat), k, a, s]) := by
  obtain ⟨b, e', hb, hb'⟩ := riemann_ok D m g h
  obtain ⟨u, eu, -, -, -, hu⟩ := riemann_low_ok D _ m.syms g
    (reps_riemann D h.syms (some m) (nm := some "RiemannCurvatureTensor") hb hb') none m rfl h.reps
  have hu := (comp_four _ _).mp hu
  have hw := (comp_four _ _).mp hb'
  refine ⟨_, e', u, eu, ?_, ?_, ?_, ?_⟩ <;> intro a s r k <;> simp only [hu, hw]
  · rfl
  · exact Geo.riemannLow_antisymm12 _ g hd h.symm h.reps.2.1 a s r k
  · exact Geo.riemannLow_antisymm34 _ g a s r k
  · exact Geo.riemannLow_pair _ g hd h.symm h.reps.2.1 a s r k

/-! ## C17 -/

/-- The optional `parent_metric` argument: omitted, or any metric object (covariant or contravariant) of the
same space. -/
def SameSpace (g : Matrix (Fin n) (Fin n) R) (pm : Option (MetricV R)) : Prop :=
  pm = none ∨ ∃ m', pm = some m' ∧ m'.Represents g

theorem sameSpace_parent {g : Matrix (Fin n) (Fin n) R} {pm : Option (MetricV R)}
    (h : SameSpace g pm) {m : MetricV R} (hm : m.Represents g) :
    ∃ m', (pm <|> some m) = some m' ∧ m'.Represents g := by
  rcases h with rfl | ⟨m', rfl, h'⟩
  · exact ⟨m, rfl, hm⟩
  · exact ⟨m', rfl, h'⟩

/-- **C17** (Ricci tensor).  `RicciTensor.from_metric` returns `Σ_t R^t_atb`, symmetric; and
`RicciTensor.from_christoffels` / `from_riemann` return the same components, also when the Christoffel symbols or
the Riemann tensor were first moved to any other index configuration. -/
theorem C17_ricci_paths (m : MetricV R) (g : Matrix (Fin n) (Fin n) R) (h : IsSpace m g)
    (hd : Commuting D m.syms n) :
    Returns (christoffelFromMetric D m) fun Γ => Returns (riemannFromMetric D m) fun Rm =>
    Returns (ricciFromMetric D m) fun Rc =>
      Rc.kind = .ricci ∧ Rc.config = ['l', 'l'] ∧ Rc.arr.shape = [n, n] ∧
      (∀ a b : Fin n, Rc.arr.get [(a : Nat), b] = ∑ t : Fin n, Rm.arr.get [(t : Nat), a, t, b]) ∧
      (∀ a b : Fin n, Rc.arr.get [(a : Nat), b] = Rc.arr.get [(b : Nat), a]) ∧
      (∀ pm, SameSpace g pm → ∀ c : Config, c.length = 3 → ValidConfig c →
        Returns (Γ.changeConfig c none) fun Γ' => Returns (ricciFromChristoffels D Γ' pm) fun Rc' =>
          Rc'.config = ['l', 'l'] ∧ ∀ a b : Fin n, Rc'.arr.get [(a : Nat), b] = Rc.arr.get [(a : Nat), b]) ∧
      (∀ pm, SameSpace g pm → ∀ c : Config, c.length = 4 → ValidConfig c →
        Returns (Rm.changeConfig c none) fun Rm' => Returns (ricciFromRiemann Rm' pm) fun Rc' =>
          Rc'.config = ['l', 'l'] ∧ ∀ a b : Fin n, Rc'.arr.get [(a : Nat), b] = Rc.arr.get [(a : Nat), b]) := by
  obtain ⟨a, e, hc, hv⟩ := christoffel_ok D m g h
  obtain ⟨b, e', hb, hb'⟩ := riemann_ok D m g h
  obtain ⟨c, e'', hcc, hc'⟩ := ricci_ok D m g h
  have hw := (comp_four _ _).mp hb'
  have hr := (comp_two _ _).mp hc'
  refine ⟨_, e, _, e', _, e'', rfl, rfl, hcc, ?_, ?_, ?_, ?_⟩
  · intro i j; simp only [hr, hw]; rfl
  · intro i j; simp only [hr]; exact Geo.ricci_symm _ g hd h.symm h.reps.2.1 i j
  · intro pm hpm cc hl hv'
    obtain ⟨t1, e1, r1, -, p1⟩ := changeConfig_reps (reps_christoffel D h (some m)
      (nm := some "ChristoffelSymbols") hc hv) rfl none m rfl h.reps valid_ull cc hl hv'
    obtain ⟨m', hm', hg'⟩ := sameSpace_parent hpm h.reps
    obtain ⟨x, e2, -, hx⟩ := ricci_of_chris D t1 m.syms g r1 pm m' (by rw [p1]; exact hm') hg'
    refine ⟨t1, e1, _, e2, rfl, fun i j => ?_⟩
    simp only [hr, (comp_two _ _).mp hx]
  · intro pm hpm cc hl hv'
    obtain ⟨t1, e1, r1, -, p1⟩ := changeConfig_reps (reps_riemann D h.syms (some m)
      (nm := some "RiemannCurvatureTensor") hb hb') rfl none m rfl h.reps valid_ulll cc hl hv'
    obtain ⟨m', hm', hg'⟩ := sameSpace_parent hpm h.reps
    obtain ⟨x, e2, -, hx⟩ := ricci_of_riemann D t1 m.syms g r1 pm m' (by rw [p1]; exact hm') hg'
    refine ⟨t1, e1, _, e2, rfl, fun i j => ?_⟩
    simp only [hr, (comp_two _ _).mp hx]

/-- **C17** (Ricci scalar).  `RicciScalar.from_metric` returns `Σ g^{ab} R_ab`, and the other three constructors
return the same value, also when their argument was first moved to any other index configuration. -/
theorem C17_scalar_paths (m : MetricV R) (g : Matrix (Fin n) (Fin n) R) (h : IsSpace m g) :
    Returns (christoffelFromMetric D m) fun Γ => Returns (riemannFromMetric D m) fun Rm =>
    Returns (ricciFromMetric D m) fun Rc => Returns (scalarFromMetric D m) fun S =>
      S.kind = .ricciScalar ∧ S.config = [] ∧ S.arr.shape = [] ∧
      S.expr = ∑ a : Fin n, ∑ b : Fin n, g⁻¹ a b * Rc.arr.get [(a : Nat), b] ∧
      (∀ pm, SameSpace g pm → ∀ c : Config, c.length = 3 → ValidConfig c →
        Returns (Γ.changeConfig c none) fun Γ' => Returns (scalarFromChristoffels D Γ' pm) fun S' =>
          S'.expr = S.expr) ∧
      (∀ pm, SameSpace g pm → ∀ c : Config, c.length = 4 → ValidConfig c →
        Returns (Rm.changeConfig c none) fun Rm' => Returns (scalarFromRiemann Rm' pm) fun S' =>
          S'.expr = S.expr) ∧
      (∀ pm, SameSpace g pm → ∀ c : Config, c.length = 2 → ValidConfig c →
        Returns (Rc.changeConfig c none) fun Rc' => Returns (scalarFromRicci Rc' pm) fun S' =>
          S'.expr = S.expr) := by
  obtain ⟨a, e, hc, hv⟩ := christoffel_ok D m g h
  obtain ⟨b, e', hb, hb'⟩ := riemann_ok D m g h
  obtain ⟨c, e'', hcc, hc'⟩ := ricci_ok D m g h
  obtain ⟨s, es, hs1, hs2⟩ := scalar_ok D m g h
  have hr := (comp_two _ _).mp hc'
  refine ⟨_, e, _, e', _, e'', _, es, rfl, rfl, hs1, ?_, ?_, ?_, ?_⟩
  · simp only [Obj.expr, hr, hs2]; rfl
  · intro pm hpm cc hl hv'
    obtain ⟨t1, e1, r1, -, p1⟩ := changeConfig_reps (reps_christoffel D h (some m)
      (nm := some "ChristoffelSymbols") hc hv) rfl none m rfl h.reps valid_ull cc hl hv'
    obtain ⟨m', hm', hg'⟩ := sameSpace_parent hpm h.reps
    obtain ⟨x, e2, -, hx⟩ := scalar_of_chris D t1 m.syms g h.symm r1 pm m' (by rw [p1]; exact hm') hg'
    exact ⟨t1, e1, _, e2, hx.trans hs2.symm⟩
  · intro pm hpm cc hl hv'
    obtain ⟨t1, e1, r1, -, p1⟩ := changeConfig_reps (reps_riemann D h.syms (some m)
      (nm := some "RiemannCurvatureTensor") hb hb') rfl none m rfl h.reps valid_ulll cc hl hv'
    obtain ⟨m', hm', hg'⟩ := sameSpace_parent hpm h.reps
    obtain ⟨x, e2, -, hx⟩ := scalar_of_riemann D t1 m.syms g h.symm r1 pm m' (by rw [p1]; exact hm') hg'
    exact ⟨t1, e1, _, e2, hx.trans hs2.symm⟩
  · intro pm hpm cc hl hv'
    obtain ⟨t1, e1, r1, -, p1⟩ := changeConfig_reps (reps_ricci D h.syms (some m)
      (nm := some "RicciTensor") hcc hc') rfl none m rfl h.reps valid_ll cc hl hv'
    obtain ⟨m', hm', hg'⟩ := sameSpace_parent hpm h.reps
    obtain ⟨x, e2, -, hx⟩ := scalar_of_ricci D t1 m.syms g h.symm r1 pm m' (by rw [p1]; exact hm') hg'
    exact ⟨t1, e1, _, e2, hx.trans hs2.symm⟩

/-! ## C18 -/

/-- **C18**.  The Einstein tensor is `R_ab − ½ R g_ab`, symmetric, and its covariant divergence
`Σ g^{ka} ∇_k G_ab` vanishes. -/
theorem C18_einstein (m : MetricV R) (g : Matrix (Fin n) (Fin n) R) (h : IsSpace m g)
    (hd : Commuting D m.syms n) :
    Returns (ricciFromMetric D m) fun Rc => Returns (scalarFromMetric D m) fun S =>
    Returns (einsteinFromMetric D m) fun G =>
      G.kind = .einstein ∧ G.config = ['l', 'l'] ∧ G.arr.shape = [n, n] ∧ G.parent = some m ∧
      (∀ a b : Fin n, G.arr.get [(a : Nat), b] =
        Rc.arr.get [(a : Nat), b] - (2 : ℚ)⁻¹ • (S.expr * g a b)) ∧
      (∀ a b : Fin n, G.arr.get [(a : Nat), b] = G.arr.get [(b : Nat), a]) ∧
      ∀ b : Fin n, Geo.div2 (coordD D m.syms n) g (fun a b => G.arr.get [(a : Nat), b]) b = 0 := by
  obtain ⟨c, e'', hcc, hc'⟩ := ricci_ok D m g h
  obtain ⟨s, es, hs1, hs2⟩ := scalar_ok D m g h
  obtain ⟨G, eG, hG1, hG2⟩ := einstein_ok D m g h
  have hr := (comp_two _ _).mp hc'
  have hG := (comp_two _ _).mp hG2
  refine ⟨_, e'', _, es, _, eG, rfl, rfl, hG1, rfl, ?_, ?_, ?_⟩
  · intro a b; simp only [hG, hr, Obj.expr, hs2]; rfl
  · intro a b; simp only [hG]; exact Geo.einstein_symm _ g hd h.symm h.reps.2.1 a b
  · intro b; simp only [hG]; exact Geo.div_einstein _ g hd h.symm h.reps.2.1 b

/-! ## C19 -/

/-- the six traces of a rank-4 tensor with the inverse metric vanish -/
def TraceFree (g : Matrix (Fin n) (Fin n) R) (T : Fin n → Fin n → Fin n → Fin n → R) : Prop :=
  ∀ a b : Fin n,
    ∑ x, ∑ y, g⁻¹ x y * T x y a b = 0 ∧ ∑ x, ∑ y, g⁻¹ x y * T x a y b = 0 ∧
    ∑ x, ∑ y, g⁻¹ x y * T x a b y = 0 ∧ ∑ x, ∑ y, g⁻¹ x y * T a x y b = 0 ∧
    ∑ x, ∑ y, g⁻¹ x y * T a x b y = 0 ∧ ∑ x, ∑ y, g⁻¹ x y * T a b x y = 0

theorem trace_skew (g : Matrix (Fin n) (Fin n) R) (hs : g.transpose = g) (f : Fin n → Fin n → R)
    (hf : ∀ x y, f x y = - f y x) : ∑ x, ∑ y, g⁻¹ x y * f x y = 0 := by
  apply Geo.eq_zero_of_eq_neg
  conv_rhs => rw [Finset.sum_comm]
  rw [← Finset.sum_neg_distrib]
  refine Finset.sum_congr rfl fun x _ => ?_
  rw [← Finset.sum_neg_distrib]
  refine Finset.sum_congr rfl fun y _ => ?_
  rw [hf x y, Geo.ginv_symm g hs y x]; ring

theorem weyl_traceFree (d : Fin n → Derivation ℚ R R) (g : Matrix (Fin n) (Fin n) R)
    (hd : ∀ i j x, d i (d j x) = d j (d i x)) (hs : g.transpose = g) (hu : IsUnit g.det) (hn : 3 ≤ n) :
    TraceFree g (Geo.weyl d g) := by
  have t13 : ∀ k m, ∑ x, ∑ y, g⁻¹ x y * Geo.weyl d g x k y m = 0 := fun k m =>
    Geo.weyl_trace13 d g hd hs hu (by simpa using hn) k m
  have a12 := Geo.weyl_antisymm12 d g hd hs hu
  have a34 := Geo.weyl_antisymm34 d g
  intro a b
  refine ⟨trace_skew g hs _ fun x y => a12 x y a b, t13 a b, ?_, ?_, ?_,
    trace_skew g hs _ fun x y => a34 a b x y⟩
  · simp only [fun x y => a34 x a b y, mul_neg, Finset.sum_neg_distrib, t13, neg_zero]
  · simp only [fun x y => a12 a x y b, mul_neg, Finset.sum_neg_distrib, t13, neg_zero]
  · simp only [fun x y => a12 a x b y, fun x y => a34 x a b y, neg_neg, t13]

/-- **C19** (dimension above three).  `WeylTensor.from_metric` is the documented combination of the lowered Riemann
tensor, the Ricci tensor and the scalar; it has the Riemann symmetries and all six traces vanish. -/
theorem C19_weyl (m : MetricV R) (g : Matrix (Fin n) (Fin n) R) (h : IsSpace m g)
    (hd : Commuting D m.syms n) (hn : 3 < n) :
    Returns (riemannFromMetric D m) fun Rm => Returns (Rm.changeConfig ['l', 'l', 'l', 'l'] none) fun Rl =>
    Returns (ricciFromMetric D m) fun Rc => Returns (scalarFromMetric D m) fun S =>
    Returns (weylFromMetric D m) fun W =>
      W.kind = .weyl ∧ W.config = ['l', 'l', 'l', 'l'] ∧ W.arr.shape = [n, n, n, n] ∧ W.parent = some m ∧
      (∀ i k l q : Fin n, W.arr.get [(i : Nat), k, l, q] = Rl.arr.get [(i : Nat), k, l, q]
        + ((n : ℚ) - 2)⁻¹ • (Rc.arr.get [(i : Nat), q] * g k l - Rc.arr.get [(i : Nat), l] * g k q
            + Rc.arr.get [(k : Nat), l] * g i q - Rc.arr.get [(k : Nat), q] * g i l)
        + (((n : ℚ) - 1) * ((n : ℚ) - 2))⁻¹ • (S.expr * (g i l * g k q - g i q * g k l))) ∧
      (∀ i k l q : Fin n, W.arr.get [(i : Nat), k, l, q] = - W.arr.get [(k : Nat), i, l, q]) ∧
      (∀ i k l q : Fin n, W.arr.get [(i : Nat), k, l, q] = - W.arr.get [(i : Nat), k, q, l]) ∧
      (∀ i k l q : Fin n, W.arr.get [(i : Nat), k, l, q] = W.arr.get [(l : Nat), q, i, k]) ∧
      (∀ i k l q : Fin n, W.arr.get [(i : Nat), k, l, q] + W.arr.get [(i : Nat), l, q, k]
        + W.arr.get [(i : Nat), q, k, l] = 0) ∧
      TraceFree g fun i k l q => W.arr.get [(i : Nat), k, l, q] := by
  obtain ⟨b, e', hb, hb'⟩ := riemann_ok D m g h
  obtain ⟨u, eu, -, -, -, hu⟩ := riemann_low_ok D _ m.syms g
    (reps_riemann D h.syms (some m) (nm := some "RiemannCurvatureTensor") hb hb') none m rfl h.reps
  obtain ⟨c, e'', hcc, hc'⟩ := ricci_ok D m g h
  obtain ⟨s, es, hs1, hs2⟩ := scalar_ok D m g h
  obtain ⟨W, eW, hW1, hW2⟩ := weyl_ok D m g h hn
  have hu := (comp_four _ _).mp hu
  have hr := (comp_two _ _).mp hc'
  have hW := (comp_four _ _).mp hW2
  have hU := h.reps.2.1
  refine ⟨_, e', u, eu, _, e'', _, es, _, eW, rfl, rfl, hW1, rfl, ?_, ?_, ?_, ?_, ?_, ?_⟩
  · intro i k l q; simp only [hu, hr, hW, Obj.expr, hs2, Geo.weyl, Fintype.card_fin]
  · intro i k l q; simp only [hW]; exact Geo.weyl_antisymm12 _ g hd h.symm hU i k l q
  · intro i k l q; simp only [hW]; exact Geo.weyl_antisymm34 _ g i k l q
  · intro i k l q; simp only [hW]; exact Geo.weyl_pair _ g hd h.symm hU i k l q
  · intro i k l q; simp only [hW]; exact Geo.weyl_bianchi _ g hd h.symm hU i k l q
  · simp only [hW]; exact weyl_traceFree _ g hd h.symm hU (by omega)

/-- **C19** (dimension three).  The zero array returned without computation is the value of the same formula. -/
theorem C19_weyl_three (m : MetricV R) (g : Matrix (Fin 3) (Fin 3) R) (h : IsSpace m g)
    (hd : Commuting D m.syms 3) :
    Returns (riemannFromMetric D m) fun Rm => Returns (Rm.changeConfig ['l', 'l', 'l', 'l'] none) fun Rl =>
    Returns (ricciFromMetric D m) fun Rc => Returns (scalarFromMetric D m) fun S =>
    Returns (weylFromMetric D m) fun W =>
      W.config = ['l', 'l', 'l', 'l'] ∧ W.arr.shape = [3, 3, 3, 3] ∧
      ∀ i k l q : Fin 3, W.arr.get [(i : Nat), k, l, q] = 0 ∧
        W.arr.get [(i : Nat), k, l, q] = Rl.arr.get [(i : Nat), k, l, q]
        + ((3 : ℚ) - 2)⁻¹ • (Rc.arr.get [(i : Nat), q] * g k l - Rc.arr.get [(i : Nat), l] * g k q
            + Rc.arr.get [(k : Nat), l] * g i q - Rc.arr.get [(k : Nat), q] * g i l)
        + (((3 : ℚ) - 1) * ((3 : ℚ) - 2))⁻¹ • (S.expr * (g i l * g k q - g i q * g k l)) := by
  obtain ⟨b, e', hb, hb'⟩ := riemann_ok D m g h
  obtain ⟨u, eu, -, -, -, hu⟩ := riemann_low_ok D _ m.syms g
    (reps_riemann D h.syms (some m) (nm := some "RiemannCurvatureTensor") hb hb') none m rfl h.reps
  obtain ⟨c, e'', hcc, hc'⟩ := ricci_ok D m g h
  obtain ⟨s, es, hs1, hs2⟩ := scalar_ok D m g h
  have hu := (comp_four _ _).mp hu
  have hr := (comp_two _ _).mp hc'
  have eW : weylFromMetric D m = .ok ⟨.weyl, ⟨[3, 3, 3, 3], fun _ => 0⟩, ['l', 'l', 'l', 'l'], 4, m.syms,
      some m, some "WeylTensor"⟩ := by
    unfold weylFromMetric
    rw [if_neg (by rw [h.syms]; omega), if_pos h.syms]
    exact mkKind_cube (n := 3) .weyl _ ['l', 'l', 'l', 'l'] m.syms _ _ valid_llll rfl h.syms rfl
  refine ⟨_, e', u, eu, _, e'', _, es, _, eW, rfl, rfl, fun i k l q => ⟨rfl, ?_⟩⟩
  have hz := Geo.weyl_three (coordD D m.syms 3) g hd h.symm h.reps.2.1 i k l q
  show (0 : R) = _
  rw [← hz]
  simp only [hu, hr, Obj.expr, hs2, Geo.weyl, Fintype.card_fin, Nat.cast_ofNat]

/-- **C19** (too few dimensions).  Fewer than three coordinates: `ValueError`, whatever the metric. -/
theorem C19_weyl_low_dimension (m : MetricV R) (hn : m.syms.length < 3) :
    Raises (weylFromMetric D m) .valueError := by
  unfold Raises weylFromMetric
  rw [if_neg (by omega), if_neg (by omega)]

/-! ## C20 -/

/-- **C20**.  The Schouten tensor is `(Ric − R g/(2(n−1)))/(n−2)`, symmetric, with trace `R/(2(n−1))`; and the lowered
Riemann tensor is the Weyl tensor plus the Kulkarni–Nomizu product of the Schouten tensor with the metric. -/
theorem C20_schouten (m : MetricV R) (g : Matrix (Fin n) (Fin n) R) (h : IsSpace m g)
    (hd : Commuting D m.syms n) (hn : 3 ≤ n) :
    Returns (riemannFromMetric D m) fun Rm => Returns (Rm.changeConfig ['l', 'l', 'l', 'l'] none) fun Rl =>
    Returns (ricciFromMetric D m) fun Rc => Returns (scalarFromMetric D m) fun S =>
    Returns (weylFromMetric D m) fun W => Returns (schoutenFromMetric D m) fun P =>
      P.kind = .schouten ∧ P.config = ['l', 'l'] ∧ P.arr.shape = [n, n] ∧ P.parent = some m ∧
      (∀ a b : Fin n, P.arr.get [(a : Nat), b] = ((n : ℚ) - 2)⁻¹ •
        (Rc.arr.get [(a : Nat), b] - (2 * ((n : ℚ) - 1))⁻¹ • (S.expr * g a b))) ∧
      (∀ a b : Fin n, P.arr.get [(a : Nat), b] = P.arr.get [(b : Nat), a]) ∧
      (∑ a : Fin n, ∑ b : Fin n, g⁻¹ a b * P.arr.get [(a : Nat), b] = (2 * ((n : ℚ) - 1))⁻¹ • S.expr) ∧
      ∀ i k l q : Fin n, Rl.arr.get [(i : Nat), k, l, q] = W.arr.get [(i : Nat), k, l, q] +
        (P.arr.get [(i : Nat), l] * g k q + P.arr.get [(k : Nat), q] * g i l
          - P.arr.get [(i : Nat), q] * g k l - P.arr.get [(k : Nat), l] * g i q) := by
  obtain ⟨b, e', hb, hb'⟩ := riemann_ok D m g h
  obtain ⟨u, eu, -, -, -, hu⟩ := riemann_low_ok D _ m.syms g
    (reps_riemann D h.syms (some m) (nm := some "RiemannCurvatureTensor") hb hb') none m rfl h.reps
  obtain ⟨c, e'', hcc, hc'⟩ := ricci_ok D m g h
  obtain ⟨s, es, hs1, hs2⟩ := scalar_ok D m g h
  obtain ⟨P, eP, hP1, hP2⟩ := schouten_ok D m g h hn
  have hu := (comp_four _ _).mp hu
  have hr := (comp_two _ _).mp hc'
  have hP := (comp_two _ _).mp hP2
  have hU := h.reps.2.1
  obtain ⟨W, eW, hW⟩ : ∃ W, weylFromMetric D m = .ok W ∧
      ∀ i k l q : Fin n, W.arr.get [(i : Nat), k, l, q] = Geo.weyl (coordD D m.syms n) g i k l q := by
    rcases Nat.lt_or_ge 3 n with h4 | h4
    · obtain ⟨W, eW, hW1, hW2⟩ := weyl_ok D m g h h4
      exact ⟨_, eW, (comp_four _ _).mp hW2⟩
    · obtain rfl : n = 3 := by omega
      obtain ⟨_, _, _, _, _, _, _, _, W, eW, -, -, hW⟩ := C19_weyl_three D m g h hd
      exact ⟨W, eW, fun i k l q => by rw [(hW i k l q).1, Geo.weyl_three _ g hd h.symm hU]⟩
  refine ⟨_, e', u, eu, _, e'', _, es, _, eW, _, eP, rfl, rfl, hP1, rfl, ?_, ?_, ?_, ?_⟩
  · intro i k; simp only [hP, hr, Obj.expr, hs2, Geo.schouten, Fintype.card_fin]
  · intro i k; simp only [hP]; exact Geo.schouten_symm _ g hd h.symm hU i k
  · have := Geo.schouten_trace (coordD D m.syms n) g h.symm hU (by simpa using hn)
    simp only [hP, Obj.expr, hs2]
    rw [Fintype.card_fin] at this
    exact this
  · intro i k l q
    simp only [hu, hW, hP]
    exact Geo.ricci_decomposition _ g i k l q

/-- **C20** (too few dimensions).  Fewer than three coordinates: `ValueError`. -/
theorem C20_schouten_low_dimension (m : MetricV R) (hn : m.syms.length < 3) :
    Raises (schoutenFromMetric D m) .valueError := by
  unfold Raises schoutenFromMetric
  rw [if_neg (by omega)]

end
end Einpy
