import Verif.Curv.Indep

/-!
# C124: product metrics
-/

namespace Einpy.Geo

variable {ι κ P R : Type*} [Fintype ι] [DecidableEq ι] [Fintype κ] [DecidableEq κ] [CommRing R] [Algebra ℚ R]

/-- The metric `g` is a product: the coordinates are divided into groups by `p`, components between different groups vanish, and the
components within a group depend on the coordinates of that group only. -/
def IsProduct (d : ι → Derivation ℚ R R) (g : Matrix ι ι R) (p : ι → P) : Prop :=
  (∀ i j, p i ≠ p j → g i j = 0) ∧ ∀ i j k, p k ≠ p i → d k (g i j) = 0

variable {d : ι → Derivation ℚ R R} {g : Matrix ι ι R} {p : ι → P} {f : κ → ι}

theorem inv_block (h : IsProduct d g p) (hu : IsUnit g.det) (i j : ι) (hij : p i ≠ p j) : g⁻¹ i j = 0 := by
  classical
  have key : g * Matrix.of (fun i j => if p i = p j then g⁻¹ i j else 0) = 1 := by
    ext a b
    rw [Matrix.mul_apply, ← Matrix.mul_nonsing_inv g hu, Matrix.mul_apply]
    by_cases hab : p a = p b
    · refine Finset.sum_congr rfl fun k _ => ?_
      by_cases hk : p a = p k
      · rw [Matrix.of_apply, if_pos (hk.symm.trans hab)]
      · rw [h.1 a k hk, zero_mul, zero_mul]
    · have e := congrFun (congrFun (Matrix.mul_nonsing_inv g hu) a) b
      rw [Matrix.mul_apply, Matrix.one_apply, if_neg (fun e => hab (by rw [e]))] at e
      rw [e]
      refine Finset.sum_eq_zero fun k _ => ?_
      by_cases hk : p a = p k
      · rw [Matrix.of_apply, if_neg (fun e => hab (hk.trans e)), mul_zero]
      · rw [h.1 a k hk, zero_mul]
  rw [Matrix.inv_eq_right_inv key, Matrix.of_apply, if_neg hij]

theorem inv_dep (h : IsProduct d g p) (hu : IsUnit g.det) (i j k : ι) (hk : p k ≠ p i) : d k (g⁻¹ i j) = 0 := by
  classical
  -- the derivative of the inverse is -g⁻¹ (∂g) g⁻¹
  have h1 : ∀ a b, ∑ c, (g a c * d k (g⁻¹ c b) + g⁻¹ c b * d k (g a c)) = 0 := by
    intro a b
    have := congrArg (fun M : Matrix ι ι R => d k (M a b)) (Matrix.mul_nonsing_inv g hu)
    simp only [Matrix.mul_apply, map_sum, Derivation.leibniz, smul_eq_mul] at this
    rw [this, Matrix.one_apply]
    split_ifs
    · exact Derivation.map_one_eq_zero _
    · exact map_zero _
  have h2 : g * Matrix.of (fun c b => d k (g⁻¹ c b)) = - (Matrix.of (fun a c => d k (g a c)) * g⁻¹) := by
    ext a b
    rw [Matrix.mul_apply, Matrix.neg_apply, Matrix.mul_apply, eq_neg_iff_add_eq_zero, ← Finset.sum_add_distrib, ← h1 a b]
    exact Finset.sum_congr rfl fun c _ => by rw [Matrix.of_apply, Matrix.of_apply]; ring
  have h3 : Matrix.of (fun c b => d k (g⁻¹ c b)) = - (g⁻¹ * (Matrix.of (fun a c => d k (g a c)) * g⁻¹)) := by
    have := congrArg (g⁻¹ * ·) h2
    simpa only [← Matrix.mul_assoc, Matrix.nonsing_inv_mul g hu, Matrix.one_mul, Matrix.mul_neg] using this
  have h4 := congrFun (congrFun h3 i) j
  rw [Matrix.of_apply] at h4
  rw [h4, Matrix.neg_apply, neg_eq_zero, Matrix.mul_apply]
  refine Finset.sum_eq_zero fun a _ => ?_
  by_cases ha : p i = p a
  · rw [Matrix.mul_apply]
    rw [Finset.sum_eq_zero fun c _ => ?_, mul_zero]
    rw [Matrix.of_apply, h.2 a c k (by rwa [← ha]), zero_mul]
  · rw [inv_block h hu i a ha, zero_mul]

theorem christoffel_mixed (h : IsProduct d g p) (hu : IsUnit g.det) (i j k : ι) (hm : ¬ (p i = p j ∧ p j = p k)) :
    christoffel d g i j k = 0 := by
  unfold christoffel half
  rw [Finset.sum_eq_zero fun n _ => ?_, smul_zero]
  by_cases hn : p i = p n
  · by_cases hij : p i = p j
    · have hjk : p j ≠ p k := fun e => hm ⟨hij, e⟩
      rw [h.2 n j k (by rw [← hn, hij]; exact hjk.symm), h.1 n k (by rw [← hn, hij]; exact hjk), h.1 j k hjk]
      simp
    · rw [h.1 n j (by rw [← hn]; exact hij), h.2 n k j (by rw [← hn]; exact fun e => hij e.symm),
        h.2 j k n (by rw [← hn]; exact hij)]
      simp
  · rw [inv_block h hu i n hn, zero_mul]

theorem christoffel_dep (hd : ∀ i j x, d i (d j x) = d j (d i x)) (h : IsProduct d g p) (hu : IsUnit g.det) (i j k l : ι)
    (hm : p l ≠ p i) : d l (christoffel d g i j k) = 0 := by
  by_cases hm' : p i = p j ∧ p j = p k
  · unfold christoffel half
    rw [Derivation.map_smul, map_sum, Finset.sum_eq_zero fun n _ => ?_, smul_zero]
    by_cases hn : p i = p n
    · rw [Derivation.leibniz, inv_dep h hu i n l hm]
      simp only [map_add, map_sub, hd l]
      rw [h.2 n j l (by rwa [← hn]), h.2 n k l (by rwa [← hn]), h.2 j k l (by rwa [← hm'.1])]
      simp
    · rw [inv_block h hu i n hn, zero_mul, map_zero]
  · rw [christoffel_mixed h hu i j k hm', map_zero]

theorem riemann_mixed (hd : ∀ i j x, d i (d j x) = d j (d i x)) (h : IsProduct d g p) (hu : IsUnit g.det) (a b c e : ι)
    (hm : ¬ (p a = p b ∧ p b = p c ∧ p c = p e)) : riemann d g a b c e = 0 := by
  have z := christoffel_mixed h hu
  have s : ∑ q, (christoffel d g q b e * christoffel d g a q c - christoffel d g q b c * christoffel d g a q e) = 0 := by
    refine Finset.sum_eq_zero fun q _ => ?_
    have z1 : christoffel d g q b e * christoffel d g a q c = 0 := by
      by_cases h1 : p q = p b ∧ p b = p e
      · rw [z a q c (fun h2 => hm ⟨h2.1.trans h1.1, h1.1.symm.trans h2.2, h2.2.symm.trans (h1.1.trans h1.2)⟩), mul_zero]
      · rw [z q b e h1, zero_mul]
    have z2 : christoffel d g q b c * christoffel d g a q e = 0 := by
      by_cases h1 : p q = p b ∧ p b = p c
      · rw [z a q e (fun h2 => hm ⟨h2.1.trans h1.1, h1.2, (h1.1.trans h1.2).symm.trans h2.2⟩), mul_zero]
      · rw [z q b c h1, zero_mul]
    rw [z1, z2, sub_zero]
  have y1 : d c (christoffel d g a b e) = 0 := by
    by_cases h1 : p a = p b ∧ p b = p e
    · refine christoffel_dep hd h hu a b e c fun e1 => hm ⟨h1.1, ?_, ?_⟩
      · rw [← h1.1, e1]
      · rw [e1, h1.1, h1.2]
    · rw [z a b e h1, map_zero]
  have y2 : d e (christoffel d g a b c) = 0 := by
    by_cases h1 : p a = p b ∧ p b = p c
    · refine christoffel_dep hd h hu a b c e fun e1 => hm ⟨h1.1, h1.2, ?_⟩
      rw [e1, h1.1, h1.2]
    · rw [z a b c h1, map_zero]
  unfold riemann
  rw [s, y1, y2]
  simp

theorem ricci_mixed (hd : ∀ i j x, d i (d j x) = d j (d i x)) (h : IsProduct d g p) (hu : IsUnit g.det) (a b : ι)
    (hm : p a ≠ p b) : ricci d g a b = 0 := by
  unfold ricci
  exact Finset.sum_eq_zero fun t _ => riemann_mixed hd h hu _ _ _ _ fun e => hm (e.2.1.trans e.2.2)

/-! ### A group of coordinates on its own -/

omit [DecidableEq ι] [DecidableEq κ] [Algebra ℚ R] in
theorem block_sum (hf : Function.Injective f) (F : ι → R) (h : ∀ i, i ∉ Set.range f → F i = 0) : ∑ i, F i = ∑ k, F (f k) :=
  (Fintype.sum_of_injective f hf _ _ h fun _ => rfl).symm

variable (hf : Function.Injective f) (hr : ∀ i a, i ∈ Set.range f ↔ p i = p (f a))
include hf hr

theorem inv_sub (h : IsProduct d g p) (hu : IsUnit g.det) : (g.submatrix f f)⁻¹ = (g⁻¹).submatrix f f := by
  refine Matrix.inv_eq_right_inv ?_
  ext a b
  rw [Matrix.mul_apply]
  simp only [Matrix.submatrix_apply]
  rw [← block_sum hf (fun k => g (f a) k * g⁻¹ k (f b)) fun i hi => by
    rw [h.1 (f a) i (fun e => hi ((hr i a).2 e.symm)), zero_mul]]
  have e := congrFun (congrFun (Matrix.mul_nonsing_inv g hu) (f a)) (f b)
  rw [Matrix.mul_apply] at e
  rw [e, Matrix.one_apply, Matrix.one_apply]
  simp only [hf.eq_iff]

theorem det_sub (h : IsProduct d g p) (hu : IsUnit g.det) : IsUnit (g.submatrix f f).det := by
  rw [← Matrix.isUnit_iff_isUnit_det]
  refine IsUnit.of_mul_eq_one ((g⁻¹).submatrix f f) ?_
  ext a b
  rw [Matrix.mul_apply]
  simp only [Matrix.submatrix_apply]
  rw [← block_sum hf (fun k => g (f a) k * g⁻¹ k (f b)) fun i hi => by
    rw [h.1 (f a) i (fun e => hi ((hr i a).2 e.symm)), zero_mul]]
  have e := congrFun (congrFun (Matrix.mul_nonsing_inv g hu) (f a)) (f b)
  rw [Matrix.mul_apply] at e
  rw [e, Matrix.one_apply, Matrix.one_apply]
  simp only [hf.eq_iff]

theorem christoffel_sub (h : IsProduct d g p) (hu : IsUnit g.det) (i j k : κ) :
    christoffel (fun a => d (f a)) (g.submatrix f f) i j k = christoffel d g (f i) (f j) (f k) := by
  unfold christoffel half
  rw [block_sum hf (fun n => g⁻¹ (f i) n * (d (f k) (g n (f j)) + d (f j) (g n (f k)) - d n (g (f j) (f k)))) fun n hn => by
    rw [inv_block h hu (f i) n (fun e => hn ((hr n i).2 e.symm)), zero_mul], inv_sub hf hr h hu]
  rfl

theorem riemann_sub (h : IsProduct d g p) (hu : IsUnit g.det) (a b c e : κ) :
    riemann (fun a => d (f a)) (g.submatrix f f) a b c e = riemann d g (f a) (f b) (f c) (f e) := by
  unfold riemann
  simp only [christoffel_sub hf hr h hu]
  congr 1
  refine (block_sum hf (fun q => christoffel d g q (f b) (f e) * christoffel d g (f a) q (f c) -
    christoffel d g q (f b) (f c) * christoffel d g (f a) q (f e)) fun q hq => ?_).symm
  rw [christoffel_mixed h hu q (f b) (f e) (fun x => hq ((hr q b).2 x.1)),
    christoffel_mixed h hu q (f b) (f c) (fun x => hq ((hr q b).2 x.1))]
  ring

theorem ricci_sub (hd : ∀ i j x, d i (d j x) = d j (d i x)) (h : IsProduct d g p) (hu : IsUnit g.det) (a b : κ) :
    ricci (fun a => d (f a)) (g.submatrix f f) a b = ricci d g (f a) (f b) := by
  unfold ricci
  simp only [riemann_sub hf hr h hu]
  refine (block_sum hf (fun t => riemann d g t (f a) t (f b)) fun t ht => ?_).symm
  exact riemann_mixed hd h hu _ _ _ _ fun x => ht ((hr t a).2 x.1)

theorem scalar_sub (hd : ∀ i j x, d i (d j x) = d j (d i x)) (h : IsProduct d g p) (hu : IsUnit g.det) :
    scalar (fun a => d (f a)) (g.submatrix f f) = ∑ a, ∑ b, g⁻¹ (f a) b * ricci d g (f a) b := by
  unfold scalar
  refine Finset.sum_congr rfl fun a _ => ?_
  rw [block_sum hf (fun b => g⁻¹ (f a) b * ricci d g (f a) b) fun b hb => by
    rw [inv_block h hu (f a) b (fun e => hb ((hr b a).2 e.symm)), zero_mul]]
  refine Finset.sum_congr rfl fun b _ => ?_
  rw [ricci_sub hf hr hd h hu, inv_sub hf hr h hu]
  rfl

end Einpy.Geo

namespace Einpy

variable {R : Type*} [CommRing R] [Algebra ℚ R] {n n₁ n₂ : Nat} (D : String → Derivation ℚ R R)

/-- The metric object `m` describes a product space: its covariant components are `g`, and `p` divides the coordinates into groups such
that components between different groups vanish and components within a group do not depend on the coordinates of other groups. -/
structure ProductSpace {P : Type*} (m : MetricV R) (g : Matrix (Fin n) (Fin n) R) (p : Fin n → P) : Prop where
  space : IsSpace m g
  comm : ∀ s ∈ m.syms, ∀ s' ∈ m.syms, ∀ x, D s (D s' x) = D s' (D s x)
  block : ∀ i j, p i ≠ p j → g i j = 0
  own : ∀ i j k, p k ≠ p i → ∀ s, m.syms[(k : Nat)]? = some s → D s (g i j) = 0

variable {D}

theorem coordD_some {syms : List String} (hl : syms.length = n) (k : Fin n) : ∃ s, syms[(k : Nat)]? = some s ∧ s ∈ syms ∧ coordD D syms n k = D s := by
  have hk : (k : Nat) < syms.length := by rw [hl]; exact k.2
  refine ⟨syms[k], List.getElem?_eq_getElem hk, List.getElem_mem hk, ?_⟩
  simp [coordD, List.getD_eq_getElem?_getD, List.getElem?_eq_getElem hk]

theorem ProductSpace.comm' {P : Type*} {m : MetricV R} {g : Matrix (Fin n) (Fin n) R} {p : Fin n → P} (h : ProductSpace D m g p) :
    ∀ i j x, coordD D m.syms n i (coordD D m.syms n j x) = coordD D m.syms n j (coordD D m.syms n i x) := by
  intro i j x
  obtain ⟨s, -, h1, e⟩ := coordD_some (D := D) h.space.syms i
  obtain ⟨s', -, h1', e'⟩ := coordD_some (D := D) h.space.syms j
  rw [e, e']
  exact h.comm s h1 s' h1' x

theorem ProductSpace.geo {P : Type*} {m : MetricV R} {g : Matrix (Fin n) (Fin n) R} {p : Fin n → P} (h : ProductSpace D m g p) :
    Geo.IsProduct (coordD D m.syms n) g p := by
  refine ⟨h.block, fun i j k hk => ?_⟩
  obtain ⟨s, h0, -, e⟩ := coordD_some (D := D) h.space.syms k
  rw [e]
  exact h.own i j k hk s h0

/-- **C124.** In a product space the Christoffel symbols, Riemann and Ricci components that the library computes vanish unless all
their indices belong to the same group. -/
theorem C124_mixed {P : Type*} (m : MetricV R) (g : Matrix (Fin n) (Fin n) R) (p : Fin n → P) (h : ProductSpace D m g p) :
    ∃ ch rm rc, christoffelFromMetric D m = .ok ch ∧ riemannFromMetric D m = .ok rm ∧ ricciFromMetric D m = .ok rc ∧
      (∀ i j k : Fin n, ¬ (p i = p j ∧ p j = p k) → ch.arr.get [(i : Nat), j, k] = 0) ∧
      (∀ i j k l : Fin n, ¬ (p i = p j ∧ p j = p k ∧ p k = p l) → rm.arr.get [(i : Nat), j, k, l] = 0) ∧
      ∀ i j : Fin n, p i ≠ p j → rc.arr.get [(i : Nat), j] = 0 := by
  obtain ⟨a, e1, -, h1⟩ := christoffel_ok D m g h.space
  obtain ⟨b, e2, -, h2⟩ := riemann_ok D m g h.space
  obtain ⟨c, e3, -, h3⟩ := ricci_ok D m g h.space
  refine ⟨_, _, _, e1, e2, e3, fun i j k hm => ?_, fun i j k l hm => ?_, fun i j hm => ?_⟩
  · exact ((comp_three _ _).1 h1 i j k).trans (Geo.christoffel_mixed h.geo h.space.reps.2.1 i j k hm)
  · exact ((comp_four _ _).1 h2 i j k l).trans (Geo.riemann_mixed h.comm' h.geo h.space.reps.2.1 i j k l hm)
  · exact ((comp_two _ _).1 h3 i j).trans (Geo.ricci_mixed h.comm' h.geo h.space.reps.2.1 i j hm)

/-- `f` numbers the coordinates of one group, and `m₁` is the metric of that group alone, with the same coordinate symbols. -/
structure IsFactor {P : Type*} (m : MetricV R) (g : Matrix (Fin n) (Fin n) R) (p : Fin n → P) (f : Fin n₁ → Fin n) (m₁ : MetricV R) : Prop where
  inj : Function.Injective f
  group : ∀ i a, (∃ b, f b = i) ↔ p i = p (f a)
  length : m₁.syms.length = n₁
  syms : ∀ a : Fin n₁, m₁.syms[(a : Nat)]? = m.syms[(f a : Nat)]?
  metric : m₁.Represents (g.submatrix f f)

theorem IsFactor.space {P : Type*} {m : MetricV R} {g : Matrix (Fin n) (Fin n) R} {p : Fin n → P} {f : Fin n₁ → Fin n} {m₁ : MetricV R}
    (h : ProductSpace D m g p) (h1 : IsFactor m g p f m₁) : IsSpace m₁ (g.submatrix f f) ∧
      coordD D m₁.syms n₁ = fun a => coordD D m.syms n (f a) := by
  refine ⟨⟨h1.metric, h1.length, by rw [Matrix.transpose_submatrix, h.space.symm]⟩, ?_⟩
  funext a
  obtain ⟨s, h0, -, e⟩ := coordD_some (D := D) h1.length a
  obtain ⟨s', h0', -, e'⟩ := coordD_some (D := D) h.space.syms (f a)
  rw [e, e']
  have := h1.syms a
  rw [h0, h0'] at this
  rw [Option.some.inj this]

/-- **C124.** Within a group the Christoffel symbols, Riemann and Ricci components of a product space are those that the library
computes for the metric of the group alone. -/
theorem C124_factor {P : Type*} (m : MetricV R) (g : Matrix (Fin n) (Fin n) R) (p : Fin n → P) (h : ProductSpace D m g p)
    (f : Fin n₁ → Fin n) (m₁ : MetricV R) (h1 : IsFactor m g p f m₁) :
    ∃ ch rm rc ch₁ rm₁ rc₁, christoffelFromMetric D m = .ok ch ∧ riemannFromMetric D m = .ok rm ∧ ricciFromMetric D m = .ok rc ∧
      christoffelFromMetric D m₁ = .ok ch₁ ∧ riemannFromMetric D m₁ = .ok rm₁ ∧ ricciFromMetric D m₁ = .ok rc₁ ∧
      (∀ i j k : Fin n₁, ch.arr.get [(f i : Nat), f j, f k] = ch₁.arr.get [(i : Nat), j, k]) ∧
      (∀ i j k l : Fin n₁, rm.arr.get [(f i : Nat), f j, f k, f l] = rm₁.arr.get [(i : Nat), j, k, l]) ∧
      ∀ i j : Fin n₁, rc.arr.get [(f i : Nat), f j] = rc₁.arr.get [(i : Nat), j] := by
  obtain ⟨hS, hc⟩ := h1.space h
  obtain ⟨a, e1, -, g1⟩ := christoffel_ok D m g h.space
  obtain ⟨b, e2, -, g2⟩ := riemann_ok D m g h.space
  obtain ⟨c, e3, -, g3⟩ := ricci_ok D m g h.space
  obtain ⟨a', e1', -, g1'⟩ := christoffel_ok D m₁ _ hS
  obtain ⟨b', e2', -, g2'⟩ := riemann_ok D m₁ _ hS
  obtain ⟨c', e3', -, g3'⟩ := ricci_ok D m₁ _ hS
  rw [hc] at g1' g2' g3'
  have hu := h.space.reps.2.1
  refine ⟨_, _, _, _, _, _, e1, e2, e3, e1', e2', e3', fun i j k => ?_, fun i j k l => ?_, fun i j => ?_⟩
  · exact ((comp_three _ _).1 g1 _ _ _).trans (((comp_three _ _).1 g1' i j k).trans (Geo.christoffel_sub h1.inj h1.group h.geo hu i j k)).symm
  · exact ((comp_four _ _).1 g2 _ _ _ _).trans (((comp_four _ _).1 g2' i j k l).trans (Geo.riemann_sub h1.inj h1.group h.geo hu i j k l)).symm
  · exact ((comp_two _ _).1 g3 _ _).trans (((comp_two _ _).1 g3' i j).trans (Geo.ricci_sub h1.inj h1.group h.comm' h.geo hu i j)).symm

/-- **C124.** The Ricci scalar of a product of two factors is the sum of their Ricci scalars. -/
theorem C124_scalar {P : Type*} (m : MetricV R) (g : Matrix (Fin n) (Fin n) R) (p : Fin n → P) (h : ProductSpace D m g p)
    (f₁ : Fin n₁ → Fin n) (f₂ : Fin n₂ → Fin n) (m₁ m₂ : MetricV R) (h1 : IsFactor m g p f₁ m₁) (h2 : IsFactor m g p f₂ m₂)
    (hd : ∀ a b, f₁ a ≠ f₂ b) (hc : ∀ i, (∃ a, f₁ a = i) ∨ ∃ b, f₂ b = i) :
    ∃ s s₁ s₂, scalarFromMetric D m = .ok s ∧ scalarFromMetric D m₁ = .ok s₁ ∧ scalarFromMetric D m₂ = .ok s₂ ∧
      s.expr = s₁.expr + s₂.expr := by
  obtain ⟨hS1, hc1⟩ := h1.space h
  obtain ⟨hS2, hc2⟩ := h2.space h
  obtain ⟨a, e, -, g0⟩ := scalar_ok D m g h.space
  obtain ⟨a1, e1, -, g1⟩ := scalar_ok D m₁ _ hS1
  obtain ⟨a2, e2, -, g2⟩ := scalar_ok D m₂ _ hS2
  refine ⟨_, _, _, e, e1, e2, ?_⟩
  show a.get [] = a1.get [] + a2.get []
  have hu := h.space.reps.2.1
  rw [g0, g1, g2, hc1, hc2, Geo.scalar_sub h1.inj h1.group h.comm' h.geo hu, Geo.scalar_sub h2.inj h2.group h.comm' h.geo hu]
  unfold Geo.scalar
  let F : Fin n → R := fun a => ∑ b, g⁻¹ a b * Geo.ricci (coordD D m.syms n) g a b
  have bij : Function.Bijective (Sum.elim f₁ f₂) := by
    constructor
    · rintro (x | x) (y | y) hxy
      · exact congrArg _ (h1.inj hxy)
      · exact absurd hxy (hd x y)
      · exact absurd hxy.symm (hd y x)
      · exact congrArg _ (h2.inj hxy)
    · intro i
      rcases hc i with ⟨x, hx⟩ | ⟨x, hx⟩
      · exact ⟨.inl x, hx⟩
      · exact ⟨.inr x, hx⟩
  show ∑ a, F a = ∑ a, F (f₁ a) + ∑ a, F (f₂ a)
  rw [← Function.Bijective.sum_comp bij F, Fintype.sum_sum_type]
  rfl

/-! ### The hypotheses are met -/

/-- the plane `(t, x)` of the example metric -/
noncomputable def exG2' : Matrix (Fin 2) (Fin 2) Pol := !![1, polP; polP, 1 + polP ^ 2]

theorem exProduct : ProductSpace polD exM4 exG4 ![0, 0, 1, 1] := by
  have hp : ∀ s, s = "y" ∨ s = "z" → polD s polP = 0 := by
    intro s hs
    unfold polP polD
    rcases hs with rfl | rfl <;>
    rw [Derivation.leibniz, MvPolynomial.pderiv_X_of_ne (by decide), MvPolynomial.pderiv_X_of_ne (by decide)] <;> simp
  refine ⟨exM4_space, fun s _ s' _ x => polD_comm _ _ _, ?_, ?_⟩
  · intro i j
    fin_cases i <;> fin_cases j <;> simp [exG4]
  · intro i j k hk s hs
    fin_cases k
    · fin_cases i
      · exact absurd rfl hk
      · exact absurd rfl hk
      · fin_cases j <;> simp [exG4]
      · fin_cases j <;> simp [exG4]
    · fin_cases i
      · exact absurd rfl hk
      · exact absurd rfl hk
      · fin_cases j <;> simp [exG4]
      · fin_cases j <;> simp [exG4]
    · have hs' : polD s polP = 0 := hp s (Or.inl (Option.some.inj hs).symm)
      fin_cases i <;> fin_cases j <;> simp [exG4, hs', Derivation.leibniz_pow]
    · have hs' : polD s polP = 0 := hp s (Or.inr (Option.some.inj hs).symm)
      fin_cases i <;> fin_cases j <;> simp [exG4, hs', Derivation.leibniz_pow]

/-- The plane `(t, x)` of the example is a factor, and so is the flat plane `(y, z)`. -/
example : ProductSpace polD exM4 exG4 ![0, 0, 1, 1] ∧
    IsFactor exM4 exG4 ![0, 0, 1, 1] (![0, 1] : Fin 2 → Fin 4) ⟨NDArr.ofMatrix exG2', ['l', 'l'], ["t", "x"], none⟩ ∧
    IsFactor exM4 exG4 ![0, 0, 1, 1] (![2, 3] : Fin 2 → Fin 4) ⟨NDArr.ofMatrix (1 : Matrix (Fin 2) (Fin 2) Pol), ['l', 'l'], ["y", "z"], none⟩ := by
  refine ⟨exProduct, ⟨by decide, by decide, rfl, ?_, rfl, ?_, Or.inl ⟨rfl, ?_⟩⟩, ⟨by decide, by decide, rfl, ?_, rfl, ?_, Or.inl ⟨rfl, ?_⟩⟩⟩
  · intro a; fin_cases a <;> rfl
  · have : exG4.submatrix (![0, 1] : Fin 2 → Fin 4) ![0, 1] = exG2' := by
      ext i j; fin_cases i <;> fin_cases j <;> simp [exG4, exG2']
    rw [this, Matrix.det_fin_two]
    have : exG2' 0 0 * exG2' 1 1 - exG2' 0 1 * exG2' 1 0 = 1 := by simp [exG2']; ring
    rw [this]; exact isUnit_one
  · rw [toMatrix_ofMatrix]
    ext i j; fin_cases i <;> fin_cases j <;> simp [exG4, exG2']
  · intro a; fin_cases a <;> rfl
  · have : exG4.submatrix (![2, 3] : Fin 2 → Fin 4) ![2, 3] = 1 := by
      ext i j; fin_cases i <;> fin_cases j <;> simp [exG4]
    rw [this, Matrix.det_one]; exact isUnit_one
  · rw [toMatrix_ofMatrix]
    ext i j; fin_cases i <;> fin_cases j <;> simp [exG4]

end Einpy
