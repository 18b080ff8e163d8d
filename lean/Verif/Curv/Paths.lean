import Verif.Curv.Lemmas

/-!
# Execution of the curvature constructors

Helper lemmas: every constructor returns, and what it returns, for tensors supplied in any configuration.
-/

set_option linter.unusedSectionVars false

namespace Einpy
open Classical

/-- a rank-2 tensor from a two-index formula -/
def tns2 {R : Type*} {n : Nat} (f : Fin n → Fin n → R) : Tns R 2 n := fun i => f (i 0) (i 1)
/-- a rank-3 tensor from a three-index formula -/
def tns3 {R : Type*} {n : Nat} (f : Fin n → Fin n → Fin n → R) : Tns R 3 n :=
  fun i => f (i 0) (i 1) (i 2)
/-- a rank-4 tensor from a four-index formula -/
def tns4 {R : Type*} {n : Nat} (f : Fin n → Fin n → Fin n → Fin n → R) : Tns R 4 n :=
  fun i => f (i 0) (i 1) (i 2) (i 3)

theorem multiIx_zero {n : Nat} (i : Fin 0 → Fin n) : multiIx i = [] := by simp [multiIx]
theorem multiIx_two {n : Nat} (i : Fin 2 → Fin n) : multiIx i = [(i 0 : Nat), i 1] := by
  simp [multiIx, List.ofFn_succ]
theorem multiIx_three {n : Nat} (i : Fin 3 → Fin n) : multiIx i = [(i 0 : Nat), i 1, i 2] := by
  simp [multiIx, List.ofFn_succ]
theorem multiIx_four {n : Nat} (i : Fin 4 → Fin n) : multiIx i = [(i 0 : Nat), i 1, i 2, i 3] := by
  simp [multiIx, List.ofFn_succ]

section
variable {R : Type*} [CommRing R] {n : Nat}

theorem comp_two (a : NDArr R) (f : Fin n → Fin n → R) :
    a.comp 2 n = tns2 f ↔ ∀ i j : Fin n, a.get [(i : Nat), j] = f i j := by
  constructor
  · intro h i j
    have := congrFun h ![i, j]
    simpa [NDArr.comp, multiIx_two, tns2] using this
  · intro h
    funext i
    simp only [NDArr.comp, multiIx_two, tns2, h]

theorem comp_three (a : NDArr R) (f : Fin n → Fin n → Fin n → R) :
    a.comp 3 n = tns3 f ↔ ∀ i j k : Fin n, a.get [(i : Nat), j, k] = f i j k := by
  constructor
  · intro h i j k
    have := congrFun h ![i, j, k]
    simpa [NDArr.comp, multiIx_three, tns3] using this
  · intro h
    funext i
    simp only [NDArr.comp, multiIx_three, tns3, h]

theorem comp_four (a : NDArr R) (f : Fin n → Fin n → Fin n → Fin n → R) :
    a.comp 4 n = tns4 f ↔ ∀ i j k l : Fin n, a.get [(i : Nat), j, k, l] = f i j k l := by
  constructor
  · intro h i j k l
    have := congrFun h ![i, j, k, l]
    simpa [NDArr.comp, multiIx_four, tns4] using this
  · intro h
    funext i
    simp only [NDArr.comp, multiIx_four, tns4, h]

/-- `t` is an object whose components, moved to the configuration `ref` with the metric `g`, are `T`. -/
structure Reps {r : Nat} (t : Obj R) (k : Kind) (syms : List String) (g : Matrix (Fin n) (Fin n) R)
    (ref : Config) (T : Tns R r n) : Prop where
  wf : t.WF n
  kind : t.kind = k
  syms_eq : t.syms = syms
  len : t.config.length = r
  comp : t.arr.comp r n =
    applySlots (fun s : Fin r => slotMatrix g (ref.getD s 'l') (t.config.getD s 'l')) T

theorem slotMatrix_self (g : Matrix (Fin n) (Fin n) R) (a : Char) : slotMatrix g a a = 1 := by
  simp [slotMatrix]

theorem Reps.self {r : Nat} {t : Obj R} {k : Kind} {syms : List String}
    {g : Matrix (Fin n) (Fin n) R} {T : Tns R r n} (c : Config) (h : Reps t k syms g c T)
    (hc : t.config = c) : t.arr.comp r n = T := by
  rw [h.comp, hc]
  simp only [slotMatrix_self]
  exact applySlots_one T

theorem Reps.of {r : Nat} (k : Kind) (a : NDArr R) (c : Config) (syms : List String)
    (p : Option (MetricV R)) (nm : Option String) (g : Matrix (Fin n) (Fin n) R) (T : Tns R r n)
    (ha : a.IsCube r n) (hv : ValidConfig c) (hl : c.length = r) (hs : syms.length = n)
    (hk : k.order = some r) (hT : a.comp r n = T) :
    Reps (⟨k, a, c, r, syms, p, nm⟩ : Obj R) k syms g c T := by
  subst hl
  refine ⟨⟨ha, hs, rfl, hv, Or.inr hk⟩, rfl, rfl, rfl, ?_⟩
  simp only [slotMatrix_self]
  rw [applySlots_one]; exact hT

theorem getD_valid {c : Config} (hv : ValidConfig c) (s : Nat) : c.getD s 'l' = 'u' ∨ c.getD s 'l' = 'l' := by
  by_cases h : s < c.length
  · rw [List.getD_eq_getElem?_getD, List.getElem?_eq_getElem h]
    exact hv _ (List.getElem_mem h)
  · right
    rw [List.getD_eq_getElem?_getD, List.getElem?_eq_none (by omega)]; rfl

theorem changeConfig_reps {r : Nat} {t : Obj R} {k : Kind} {syms : List String}
    {g : Matrix (Fin n) (Fin n) R} {ref : Config} {T : Tns R r n} (h : Reps t k syms g ref T)
    (hk : k.changeConfigTarget = some k) (pm : Option (MetricV R)) (m : MetricV R)
    (hm : (pm <|> t.parent) = some m) (hg : m.Represents g) (hr : ValidConfig ref) (c : Config)
    (hl : c.length = r) (hv : ValidConfig c) :
    ∃ t', t.changeConfig c pm = .ok t' ∧ Reps t' k syms g ref T ∧ t'.config = c ∧
      t'.parent = some m := by
  obtain ⟨ko, -, a, e, ha, hc⟩ := changeConfig_ok (r := r) t c pm m g k (by rw [h.kind, hk]) hm hg
    h.wf h.len hl hv
  refine ⟨_, e, ⟨?_, rfl, h.syms_eq, hl, ?_⟩, rfl, rfl⟩
  · subst hl
    exact ⟨ha, h.wf.syms, rfl, hv, Or.inr ko⟩
  · show a.comp r n = _
    rw [hc, h.comp, applySlots_comp]
    congr 1
    funext s
    have e1 : t.config[(s : Nat)]'(by have := s.2; have := h.len; omega) = t.config.getD s 'l' := by
      rw [List.getD_eq_getElem?_getD, List.getElem?_eq_getElem]; rfl
    have e2 : c[(s : Nat)]'(by have := s.2; omega) = c.getD s 'l' := by
      rw [List.getD_eq_getElem?_getD, List.getElem?_eq_getElem]; rfl
    rw [e1, e2]
    exact slotMatrix_mul g hg.2.1 _ _ _ (getD_valid hr s) (getD_valid h.wf.valid s) (getD_valid hv s)

theorem toConfig_reps [Algebra ℚ R] {r : Nat} {t : Obj R} {k : Kind} {syms : List String}
    {g : Matrix (Fin n) (Fin n) R} {ref : Config} {T : Tns R r n} (h : Reps t k syms g ref T)
    (hk : k.changeConfigTarget = some k) (pm : Option (MetricV R)) (m : MetricV R)
    (hm : (pm <|> t.parent) = some m) (hg : m.Represents g) (hr : ValidConfig ref) (c : Config)
    (hl : c.length = r) (hv : ValidConfig c) :
    ∃ t', toConfig t c pm = .ok t' ∧ Reps t' k syms g ref T ∧ t'.config = c ∧
      (pm <|> t'.parent) = some m := by
  by_cases hc : t.config = c
  · exact ⟨t, by simp [toConfig, hc], h, hc, hm⟩
  · obtain ⟨t', e, h', c', p'⟩ := changeConfig_reps h hk pm m hm hg hr c hl hv
    refine ⟨t', by simp only [toConfig, hc, if_false, e], h', c', ?_⟩
    rw [p']
    cases pm with
    | none => rfl
    | some x => simpa using hm

/-! ## the constructors -/

variable [Algebra ℚ R] (D : String → Derivation ℚ R R)

/-- The covariant metric and coordinates a metric object stands for. -/
structure IsSpace (m : MetricV R) (g : Matrix (Fin n) (Fin n) R) : Prop where
  reps : m.Represents g
  syms : m.syms.length = n
  symm : g.transpose = g

theorem valid_ull : ValidConfig ['u', 'l', 'l'] := by intro c h; simp at h; tauto
theorem valid_ulll : ValidConfig ['u', 'l', 'l', 'l'] := by intro c h; simp at h; tauto
theorem valid_llll : ValidConfig ['l', 'l', 'l', 'l'] := by intro c h; simp at h; tauto
theorem valid_ll : ValidConfig ['l', 'l'] := by intro c h; simp at h; tauto
theorem valid_ul : ValidConfig ['u', 'l'] := by intro c h; simp at h; tauto
theorem valid_nil : ValidConfig [] := by intro c h; simp at h

theorem christoffel_ok (m : MetricV R) (g : Matrix (Fin n) (Fin n) R) (h : IsSpace m g) :
    ∃ a : NDArr R, christoffelFromMetric D m =
      .ok ⟨.christoffel, a, ['u', 'l', 'l'], 3, m.syms, some m, some "ChristoffelSymbols"⟩ ∧
      a.IsCube 3 n ∧ a.comp 3 n = tns3 (Geo.christoffel (coordD D m.syms n) g) := by
  obtain ⟨lo, up, e1, e2, s1, s2, g1, g2, -, -⟩ := metric_dict m g h.reps
  have hinv : lo.arr.inv = .ok (NDArr.ofMatrix g⁻¹) := by
    rw [NDArr.inv_ok lo.arr s1 (by rw [g1]; exact h.reps.2.1), g1]
  set a : NDArr R := ⟨[n, n, n], christoffelCells D m.syms n lo.arr (NDArr.ofMatrix g⁻¹)⟩ with ha
  have hcube : a.IsCube 3 n := rfl
  refine ⟨a, ?_, hcube, ?_⟩
  · unfold christoffelFromMetric
    simp only [e1, hinv, h.syms, bind, Except.bind]
    exact mkKind_cube .christoffel a ['u', 'l', 'l'] m.syms _ _ valid_ull hcube h.syms rfl
  · rw [comp_three]
    intro i j k
    exact christoffelCells_eq D m.syms lo.arr _ g g1 (toMatrix_ofMatrix _) h.symm i j k

theorem riemann_of_chris (chris : Obj R) (syms : List String) (g : Matrix (Fin n) (Fin n) R)
    (h : Reps chris .christoffel syms g ['u', 'l', 'l']
      (tns3 (Geo.christoffel (coordD D syms n) g)))
    (pm : Option (MetricV R)) (m : MetricV R) (hm : (pm <|> chris.parent) = some m)
    (hg : m.Represents g) :
    ∃ a : NDArr R, riemannFromChristoffels D chris pm =
      .ok ⟨.riemann, a, ['u', 'l', 'l', 'l'], 4, syms, some m, some "RiemannCurvatureTensor"⟩ ∧
      a.IsCube 4 n ∧ a.comp 4 n = tns4 (Geo.riemann (coordD D syms n) g) := by
  obtain ⟨c', e, h', hc, hp⟩ := toConfig_reps h rfl pm m hm hg valid_ull ['u', 'l', 'l'] rfl valid_ull
  have hsl : syms.length = n := by rw [← h'.syms_eq]; exact h'.wf.syms
  set a : NDArr R := ⟨[n, n, n, n], riemannCells D syms n c'.arr⟩ with ha
  have hcube : a.IsCube 4 n := rfl
  refine ⟨a, ?_, hcube, ?_⟩
  · unfold riemannFromChristoffels
    simp only [e, bind, Except.bind, h'.syms_eq, hsl, hp]
    exact mkKind_cube .riemann a ['u', 'l', 'l', 'l'] syms _ _ valid_ulll hcube hsl rfl
  · rw [comp_four]
    intro t s r k
    exact riemannCells_eq D syms c'.arr g ((comp_three _ _).mp (h'.self _ hc)) t s r k

theorem reps_christoffel {m : MetricV R} {g : Matrix (Fin n) (Fin n) R} (h : IsSpace m g)
    {a : NDArr R} {nm : Option String} (p : Option (MetricV R))
    (ha : a.IsCube 3 n) (hc : a.comp 3 n = tns3 (Geo.christoffel (coordD D m.syms n) g)) :
    Reps (⟨.christoffel, a, ['u', 'l', 'l'], 3, m.syms, p, nm⟩ : Obj R) .christoffel m.syms g
      ['u', 'l', 'l'] (tns3 (Geo.christoffel (coordD D m.syms n) g)) :=
  Reps.of _ _ _ _ _ _ _ _ ha valid_ull rfl h.syms rfl hc

theorem riemann_ok (m : MetricV R) (g : Matrix (Fin n) (Fin n) R) (h : IsSpace m g) :
    ∃ a : NDArr R, riemannFromMetric D m =
      .ok ⟨.riemann, a, ['u', 'l', 'l', 'l'], 4, m.syms, some m, some "RiemannCurvatureTensor"⟩ ∧
      a.IsCube 4 n ∧ a.comp 4 n = tns4 (Geo.riemann (coordD D m.syms n) g) := by
  obtain ⟨a, e, ha, hc⟩ := christoffel_ok D m g h
  obtain ⟨b, e', hb, hc'⟩ := riemann_of_chris D _ m.syms g (reps_christoffel D h (some m) ha hc) none m rfl
    h.reps
  refine ⟨b, ?_, hb, hc'⟩
  unfold riemannFromMetric
  simp only [e, bind, Except.bind]
  exact e'

theorem ricci_of_riemann (riem : Obj R) (syms : List String) (g : Matrix (Fin n) (Fin n) R)
    (h : Reps riem .riemann syms g ['u', 'l', 'l', 'l'] (tns4 (Geo.riemann (coordD D syms n) g)))
    (pm : Option (MetricV R)) (m : MetricV R) (hm : (pm <|> riem.parent) = some m)
    (hg : m.Represents g) :
    ∃ a : NDArr R, ricciFromRiemann riem pm =
      .ok ⟨.ricci, a, ['l', 'l'], 2, syms, some m, some "RicciTensor"⟩ ∧
      a.IsCube 2 n ∧ a.comp 2 n = tns2 (Geo.ricci (coordD D syms n) g) := by
  obtain ⟨c', e, h', hc, hp⟩ := toConfig_reps h rfl pm m hm hg valid_ulll ['u', 'l', 'l', 'l'] rfl
    valid_ulll
  have hsl : syms.length = n := by rw [← h'.syms_eq]; exact h'.wf.syms
  have hsh : c'.arr.shape = [n, n, n, n] := by
    have := h'.wf.cube
    rw [hc] at this; exact this
  set a : NDArr R := ⟨[n, n], fun idx => ∑ k ∈ Finset.range n,
    c'.arr.get ((idx.insertIdx 0 k).insertIdx 2 k)⟩ with ha
  have hcube : a.IsCube 2 n := rfl
  have hcon : c'.arr.tensorcontraction 0 2 = .ok a := by
    unfold NDArr.tensorcontraction
    rw [hsh]
    simp [ha]
  refine ⟨a, ?_, hcube, ?_⟩
  · unfold ricciFromRiemann
    simp only [e, bind, Except.bind, hcon, h'.syms_eq, hp]
    exact mkKind_cube .ricci a ['l', 'l'] syms _ _ valid_ll hcube hsl rfl
  · rw [comp_two]
    intro i j
    show ∑ k ∈ Finset.range n, c'.arr.get [k, (i : Nat), k, j] = _
    rw [Finset.sum_range (fun k => c'.arr.get [k, (i : Nat), k, j])]
    unfold Geo.ricci
    have := (comp_four _ _).mp (h'.self _ hc)
    exact Finset.sum_congr rfl fun k _ => this k i k j

theorem reps_riemann {syms : List String} {g : Matrix (Fin n) (Fin n) R}
    (hs : syms.length = n) {a : NDArr R} {nm : Option String} (p : Option (MetricV R))
    (ha : a.IsCube 4 n) (hc : a.comp 4 n = tns4 (Geo.riemann (coordD D syms n) g)) :
    Reps (⟨.riemann, a, ['u', 'l', 'l', 'l'], 4, syms, p, nm⟩ : Obj R) .riemann syms g
      ['u', 'l', 'l', 'l'] (tns4 (Geo.riemann (coordD D syms n) g)) :=
  Reps.of _ _ _ _ _ _ _ _ ha valid_ulll rfl hs rfl hc

theorem reps_ricci {syms : List String} {g : Matrix (Fin n) (Fin n) R}
    (hs : syms.length = n) {a : NDArr R} {nm : Option String} (p : Option (MetricV R))
    (ha : a.IsCube 2 n) (hc : a.comp 2 n = tns2 (Geo.ricci (coordD D syms n) g)) :
    Reps (⟨.ricci, a, ['l', 'l'], 2, syms, p, nm⟩ : Obj R) .ricci syms g
      ['l', 'l'] (tns2 (Geo.ricci (coordD D syms n) g)) :=
  Reps.of _ _ _ _ _ _ _ _ ha valid_ll rfl hs rfl hc

theorem Reps.syms_len {r : Nat} {t : Obj R} {k : Kind} {syms : List String}
    {g : Matrix (Fin n) (Fin n) R} {T : Tns R r n} {c : Config} (h : Reps t k syms g c T) :
    syms.length = n := by rw [← h.syms_eq]; exact h.wf.syms

theorem ricci_of_chris (chris : Obj R) (syms : List String) (g : Matrix (Fin n) (Fin n) R)
    (h : Reps chris .christoffel syms g ['u', 'l', 'l']
      (tns3 (Geo.christoffel (coordD D syms n) g)))
    (pm : Option (MetricV R)) (m : MetricV R) (hm : (pm <|> chris.parent) = some m)
    (hg : m.Represents g) :
    ∃ a : NDArr R, ricciFromChristoffels D chris pm =
      .ok ⟨.ricci, a, ['l', 'l'], 2, syms, some m, some "RicciTensor"⟩ ∧
      a.IsCube 2 n ∧ a.comp 2 n = tns2 (Geo.ricci (coordD D syms n) g) := by
  obtain ⟨b, e', hb, hc'⟩ := riemann_of_chris D chris syms g h pm m hm hg
  obtain ⟨c, e'', hcc, hc''⟩ := ricci_of_riemann D _ syms g
    (reps_riemann D h.syms_len (some m) hb hc') none m rfl hg
  refine ⟨c, ?_, hcc, hc''⟩
  unfold ricciFromChristoffels
  simp only [e', bind, Except.bind]
  exact e''

theorem ricci_ok (m : MetricV R) (g : Matrix (Fin n) (Fin n) R) (h : IsSpace m g) :
    ∃ a : NDArr R, ricciFromMetric D m =
      .ok ⟨.ricci, a, ['l', 'l'], 2, m.syms, some m, some "RicciTensor"⟩ ∧
      a.IsCube 2 n ∧ a.comp 2 n = tns2 (Geo.ricci (coordD D m.syms n) g) := by
  obtain ⟨a, e, ha, hc⟩ := christoffel_ok D m g h
  obtain ⟨b, e', hb, hc'⟩ := ricci_of_chris D _ m.syms g (reps_christoffel D h (some m) ha hc) none m rfl
    h.reps
  refine ⟨b, ?_, hb, hc'⟩
  unfold ricciFromMetric
  simp only [e, bind, Except.bind]
  exact e'

theorem scalar_of_ricci (ric : Obj R) (syms : List String) (g : Matrix (Fin n) (Fin n) R)
    (hs : g.transpose = g)
    (h : Reps ric .ricci syms g ['l', 'l'] (tns2 (Geo.ricci (coordD D syms n) g)))
    (pm : Option (MetricV R)) (m : MetricV R) (hm : (pm <|> ric.parent) = some m)
    (hg : m.Represents g) :
    ∃ a : NDArr R, scalarFromRicci ric pm =
      .ok ⟨.ricciScalar, a, [], 0, syms, some m, some "RicciScalar"⟩ ∧
      a.shape = [] ∧ a.get [] = Geo.scalar (coordD D syms n) g := by
  obtain ⟨c', e, h', hc, hp⟩ := toConfig_reps h rfl pm m hm hg valid_ll ['u', 'l'] rfl valid_ul
  have hsl : syms.length = n := h.syms_len
  have hsh : c'.arr.shape = [n, n] := by
    have := h'.wf.cube
    rw [hc] at this; exact this
  set a : NDArr R := ⟨[], fun idx => ∑ k ∈ Finset.range n,
    c'.arr.get ((idx.insertIdx 0 k).insertIdx 1 k)⟩ with ha
  have hcon : c'.arr.tensorcontraction 0 1 = .ok a := by
    unfold NDArr.tensorcontraction
    rw [hsh]
    simp [ha]
  refine ⟨a, ?_, rfl, ?_⟩
  · unfold scalarFromRicci
    simp only [e, bind, Except.bind, hcon, h'.syms_eq, hp]
    exact mkKind_cube (n := n) .ricciScalar a [] syms _ _ valid_nil rfl hsl rfl
  · show ∑ k ∈ Finset.range n, c'.arr.get [k, k] = _
    rw [Finset.sum_range (fun k => c'.arr.get [k, k])]
    have hcomp := h'.comp
    have hF : (fun s : Fin 2 => slotMatrix g ((['l', 'l'] : Config).getD s 'l')
        (c'.config.getD s 'l')) = Function.update (fun _ => 1) 0 g⁻¹ := by
      rw [hc]
      funext s
      fin_cases s <;> simp [slotMatrix]
    rw [hF, applySlots_single] at hcomp
    have hc2 : c'.arr.comp 2 n = tns2 (fun i j => ∑ k, g⁻¹ i k * Geo.ricci (coordD D syms n) g k j) := by
      rw [hcomp]; funext i; simp [tns2]
    have hc3 := (comp_two _ _).mp hc2
    simp only [hc3]
    unfold Geo.scalar
    rw [Finset.sum_comm]
    refine Finset.sum_congr rfl fun k _ => Finset.sum_congr rfl fun i _ => ?_
    rw [Geo.ginv_symm g hs i k]

theorem scalar_of_riemann (riem : Obj R) (syms : List String) (g : Matrix (Fin n) (Fin n) R)
    (hs : g.transpose = g)
    (h : Reps riem .riemann syms g ['u', 'l', 'l', 'l'] (tns4 (Geo.riemann (coordD D syms n) g)))
    (pm : Option (MetricV R)) (m : MetricV R) (hm : (pm <|> riem.parent) = some m)
    (hg : m.Represents g) :
    ∃ a : NDArr R, scalarFromRiemann riem pm =
      .ok ⟨.ricciScalar, a, [], 0, syms, some m, some "RicciScalar"⟩ ∧
      a.shape = [] ∧ a.get [] = Geo.scalar (coordD D syms n) g := by
  obtain ⟨b, e', hb, hc'⟩ := ricci_of_riemann D riem syms g h pm m hm hg
  obtain ⟨c, e'', h1, h2⟩ := scalar_of_ricci D _ syms g hs (reps_ricci D h.syms_len (some m) hb hc')
    none m rfl hg
  refine ⟨c, ?_, h1, h2⟩
  unfold scalarFromRiemann
  simp only [e', bind, Except.bind]
  exact e''

theorem scalar_of_chris (chris : Obj R) (syms : List String) (g : Matrix (Fin n) (Fin n) R)
    (hs : g.transpose = g)
    (h : Reps chris .christoffel syms g ['u', 'l', 'l']
      (tns3 (Geo.christoffel (coordD D syms n) g)))
    (pm : Option (MetricV R)) (m : MetricV R) (hm : (pm <|> chris.parent) = some m)
    (hg : m.Represents g) :
    ∃ a : NDArr R, scalarFromChristoffels D chris pm =
      .ok ⟨.ricciScalar, a, [], 0, syms, some m, some "RicciScalar"⟩ ∧
      a.shape = [] ∧ a.get [] = Geo.scalar (coordD D syms n) g := by
  obtain ⟨b, e', hb, hc'⟩ := riemann_of_chris D chris syms g h pm m hm hg
  obtain ⟨c, e'', h1, h2⟩ := scalar_of_riemann D _ syms g hs
    (reps_riemann D h.syms_len (some m) hb hc') none m rfl hg
  refine ⟨c, ?_, h1, h2⟩
  unfold scalarFromChristoffels
  simp only [e', bind, Except.bind]
  exact e''

theorem scalar_ok (m : MetricV R) (g : Matrix (Fin n) (Fin n) R) (h : IsSpace m g) :
    ∃ a : NDArr R, scalarFromMetric D m =
      .ok ⟨.ricciScalar, a, [], 0, m.syms, some m, some "RicciScalar"⟩ ∧
      a.shape = [] ∧ a.get [] = Geo.scalar (coordD D m.syms n) g := by
  obtain ⟨a, e, ha, hc⟩ := christoffel_ok D m g h
  obtain ⟨b, e', h1, h2⟩ := scalar_of_chris D _ m.syms g h.symm
    (reps_christoffel D h (some m) ha hc) none m rfl h.reps
  refine ⟨b, ?_, h1, h2⟩
  unfold scalarFromMetric
  simp only [e, bind, Except.bind]
  exact e'

theorem zip2_ok (f : R → R → R) (a b : NDArr R) (u v : Fin n → Fin n → R) (ha : a.IsCube 2 n)
    (hb : b.shape = [n, n]) (hu : a.comp 2 n = tns2 u) (hv : ∀ i j : Fin n, b.get [(i : Nat), j] = v i j) :
    ∃ c, a.zip2 f b = .ok c ∧ c.IsCube 2 n ∧ c.comp 2 n = tns2 fun i j => f (u i j) (v i j) := by
  refine ⟨⟨a.shape, fun idx => f (a.get idx) (b.get idx)⟩, ?_, ha, ?_⟩
  · unfold NDArr.zip2
    rw [if_pos]
    rw [show a.shape = _ from ha, hb]; rfl
  · rw [comp_two]
    intro i j
    show f (a.get [(i : Nat), j]) (b.get [(i : Nat), j]) = _
    rw [(comp_two _ _).mp hu, hv]

theorem einstein_ok (m : MetricV R) (g : Matrix (Fin n) (Fin n) R) (h : IsSpace m g) :
    ∃ a : NDArr R, einsteinFromMetric D m =
      .ok ⟨.einstein, a, ['l', 'l'], 2, m.syms, some m, some "EinsteinTensor"⟩ ∧
      a.IsCube 2 n ∧ a.comp 2 n = tns2 (Geo.einstein (coordD D m.syms n) g) := by
  obtain ⟨lo, up, e1, e2, s1, s2, g1, g2, -, -⟩ := metric_dict m g h.reps
  obtain ⟨b, e', hb, hc'⟩ := ricci_ok D m g h
  obtain ⟨c, e'', h1, h2⟩ := scalar_of_ricci D _ m.syms g h.symm
    (reps_ricci D h.syms (some m) (nm := some "RicciTensor") hb hc') (some m) m rfl h.reps
  obtain ⟨z, ez, zc, zv⟩ := zip2_ok (fun r x => r - ((2 : ℚ)⁻¹ • x) * c.get []) b lo.arr _ g hb s1 hc'
    (fun i j => by rw [← g1]; rfl)
  refine ⟨z, ?_, zc, ?_⟩
  · unfold einsteinFromMetric
    simp only [e', bind, Except.bind, e'', e1, Obj.expr, ez]
    exact mkKind_cube .einstein z ['l', 'l'] m.syms _ _ valid_ll zc h.syms rfl
  · rw [zv]
    funext i
    simp only [tns2, h2, Geo.einstein, Geo.half]
    rw [smul_mul_assoc, mul_comm]

theorem schouten_ok (m : MetricV R) (g : Matrix (Fin n) (Fin n) R) (h : IsSpace m g) (h3 : 3 ≤ n) :
    ∃ a : NDArr R, schoutenFromMetric D m =
      .ok ⟨.schouten, a, ['l', 'l'], 2, m.syms, some m, some "SchoutenTensor"⟩ ∧
      a.IsCube 2 n ∧ a.comp 2 n = tns2 (Geo.schouten (coordD D m.syms n) g) := by
  obtain ⟨lo, up, e1, e2, s1, s2, g1, g2, -, -⟩ := metric_dict m g h.reps
  obtain ⟨b, e', hb, hc'⟩ := ricci_ok D m g h
  obtain ⟨c, e'', h1, h2⟩ := scalar_of_ricci D _ m.syms g h.symm
    (reps_ricci D h.syms (some m) (nm := some "RicciTensor") hb hc') none m rfl h.reps
  obtain ⟨z, ez, zc, zv⟩ := zip2_ok (fun r x =>
      ((n : ℚ) - 2)⁻¹ • (r - (2 * ((n : ℚ) - 1))⁻¹ • (c.get [] * x))) b lo.arr _ g hb s1 hc'
    (fun i j => by rw [← g1]; rfl)
  refine ⟨z, ?_, zc, ?_⟩
  · unfold schoutenFromMetric
    rw [if_pos (by rw [h.syms]; exact h3)]
    simp only [e', bind, Except.bind, e'', e1, Obj.expr, h.syms, ez]
    exact mkKind_cube .schouten z ['l', 'l'] m.syms _ _ valid_ll zc h.syms rfl
  · rw [zv]
    funext i
    simp only [tns2, h2, Geo.schouten, Fintype.card_fin]

theorem weylCells_eq (riem ric gg : NDArr R) (sc : R) (r : Fin n → Fin n → Fin n → Fin n → R)
    (q g : Fin n → Fin n → R)
    (hr : ∀ i j k l : Fin n, riem.get [(i : Nat), j, k, l] = r i j k l)
    (hq : ∀ i j : Fin n, ric.get [(i : Nat), j] = q i j)
    (hg : ∀ i j : Fin n, gg.get [(i : Nat), j] = g i j) (i k l m : Fin n) :
    weylCells n riem ric gg sc [(i : Nat), k, l, m] =
      r i k l m + (((n : ℚ) - 2)⁻¹ • (q i m * g k l - q i l * g k m + q k l * g i m - q k m * g i l)
          + (((n : ℚ) - 1) * ((n : ℚ) - 2))⁻¹ • (sc * (g i l * g k m - g i m * g k l))) := by
  unfold weylCells
  refine foldl_cells _ _ (fun t => t % n = i ∧ (t / n) % n = k ∧ (t / n ^ 2) % n = l ∧
    (t / n ^ 3) % n = m) _ _ ?_ ?_ _ (Or.inr ?_)
  · rintro tmp t - ⟨h1, h2, h3, h4⟩
    simp only [h1, h2, h3, h4]
    unfold Cells.set
    rw [if_pos rfl]
    simp only [hr, hq, hg]
  · intro tmp t _ hnW
    show Cells.set _ _ _ _ = _
    unfold Cells.set
    rw [if_neg]
    intro hh
    simp only [List.cons.injEq, and_true] at hh
    exact hnW ⟨hh.1.symm, hh.2.1.symm, hh.2.2.1.symm, hh.2.2.2.symm⟩
  · obtain ⟨f1, f2, f3, f4, f5⟩ := digits4 (m : Nat) l k i m.2 l.2 k.2 i.2
    exact ⟨_, List.mem_range.mpr f1, f2, f3, f4, f5⟩

/-- lowering the first index of the Riemann tensor -/
theorem riemann_low_ok (t : Obj R) (syms : List String) (g : Matrix (Fin n) (Fin n) R)
    (h : Reps t .riemann syms g ['u', 'l', 'l', 'l'] (tns4 (Geo.riemann (coordD D syms n) g)))
    (pm : Option (MetricV R)) (m : MetricV R) (hm : (pm <|> t.parent) = some m)
    (hg : m.Represents g) :
    ∃ t', t.changeConfig ['l', 'l', 'l', 'l'] pm = .ok t' ∧ t'.kind = .riemann ∧
      t'.config = ['l', 'l', 'l', 'l'] ∧ t'.arr.IsCube 4 n ∧
      t'.arr.comp 4 n = tns4 (Geo.riemannLow (coordD D syms n) g) := by
  obtain ⟨t', e, h', hc, -⟩ := changeConfig_reps h rfl pm m hm hg valid_ulll ['l', 'l', 'l', 'l'] rfl
    valid_llll
  refine ⟨t', e, h'.kind, hc, ?_, ?_⟩
  · have := h'.wf.cube; rw [hc] at this; exact this
  have hF : (fun s : Fin 4 => slotMatrix g ((['u', 'l', 'l', 'l'] : Config).getD s 'l')
      (t'.config.getD s 'l')) = Function.update (fun _ => 1) 0 g := by
    rw [hc]
    funext s
    fin_cases s <;> simp [slotMatrix]
  rw [h'.comp, hF, applySlots_single]
  funext i
  simp only [tns4, Geo.riemannLow]
  refine Finset.sum_congr rfl fun k _ => ?_
  simp

theorem weyl_ok (m : MetricV R) (g : Matrix (Fin n) (Fin n) R) (h : IsSpace m g) (h4 : 3 < n) :
    ∃ a : NDArr R, weylFromMetric D m =
      .ok ⟨.weyl, a, ['l', 'l', 'l', 'l'], 4, m.syms, some m, some "WeylTensor"⟩ ∧
      a.IsCube 4 n ∧ a.comp 4 n = tns4 (Geo.weyl (coordD D m.syms n) g) := by
  obtain ⟨lo, up, e1, e2, s1, s2, g1, g2, -, hls⟩ := metric_dict m g h.reps
  obtain ⟨a, er, ha, hac⟩ := riemann_ok D m g h
  have hreps := reps_riemann D h.syms (some m) (nm := some "RiemannCurvatureTensor") ha hac
  obtain ⟨tl, el, -, -, hlc, hl⟩ := riemann_low_ok D _ m.syms g hreps none m rfl h.reps
  obtain ⟨b, e', hb, hc'⟩ := ricci_of_riemann D _ m.syms g hreps none m rfl h.reps
  obtain ⟨c, e'', h1, h2⟩ := scalar_of_ricci D _ m.syms g h.symm
    (reps_ricci D h.syms (some m) (nm := some "RicciTensor") hb hc') none m rfl h.reps
  set z : NDArr R := ⟨[n, n, n, n], weylCells n tl.arr b lo.arr (c.get [])⟩ with hz
  have zc : z.IsCube 4 n := rfl
  refine ⟨z, ?_, zc, ?_⟩
  · unfold weylFromMetric
    rw [if_pos (by rw [h.syms]; exact h4)]
    simp only [er, el, e', bind, Except.bind, e'', e1, Obj.expr, hls, h.syms]
    exact mkKind_cube .weyl z ['l', 'l', 'l', 'l'] m.syms _ _ valid_llll zc h.syms rfl
  · rw [comp_four]
    intro i k l q
    show weylCells n tl.arr b lo.arr (c.get []) [(i : Nat), k, l, q] = _
    rw [weylCells_eq tl.arr b lo.arr (c.get []) _ _ g ((comp_four _ _).mp hl) ((comp_two _ _).mp hc')
      (fun i j => by rw [← g1]; rfl), h2]
    simp only [Geo.weyl, Fintype.card_fin]
    rw [add_assoc]

end
end Einpy
