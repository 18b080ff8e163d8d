import Verif.Tensor.Props

/-!
# Property theorems C04 – C08, C10
-/

namespace Einpy
open Classical

section
variable {R : Type*} [CommRing R] {n : Nat}

/-! ## C04 `tensor_product` -/

/-- **C04** (outer product).  Without contraction indices the product of two well-formed tensors has
the concatenated configuration and components `T1(a) T2(b)`. -/
theorem C04_outer_product (t1 t2 : Obj R) (h1 : t1.WF n) (h2 : t2.WF n) :
    Returns (tensorProduct t1 t2 none none) fun t =>
      t.config = t1.config ++ t2.config ∧
      t.arr.shape = List.replicate (t1.config.length + t2.config.length) n ∧
      t.parent = t1.parent ∧ t.syms = t1.syms ∧
      ∀ (a : Fin t1.config.length → Fin n) (b : Fin t2.config.length → Fin n),
        t.arr.get (multiIx a ++ multiIx b) = t1.arr.get (multiIx a) * t2.arr.get (multiIx b) := by
  have hc : (t1.arr.tensorproduct t2.arr).IsCube (t1.config ++ t2.config).length n := by
    simp only [NDArr.IsCube, NDArr.tensorproduct, List.length_append]
    rw [show t1.arr.shape = _ from h1.cube, show t2.arr.shape = _ from h2.cube]
    exact List.replicate_append_replicate
  have hv : ValidConfig (t1.config ++ t2.config) := by
    intro ch h
    rcases List.mem_append.mp h with h | h
    · exact h1.valid ch h
    · exact h2.valid ch h
  have e := mkBase_cube (t1.arr.tensorproduct t2.arr) (t1.config ++ t2.config) t1.syms t1.parent
    (some "GenericTensor") hv hc h1.syms
  refine ⟨_, e, rfl, by simpa [NDArr.IsCube] using hc, rfl, rfl, ?_⟩
  intro a b
  have hr : t1.arr.rank = (multiIx a).length := by
    simp [NDArr.rank, show t1.arr.shape = _ from h1.cube, multiIx_length]
  simp [NDArr.tensorproduct, hr]

theorem tensorProduct_at (t1 t2 : Obj R) (i j : Nat) :
    tensorProduct t1 t2 (some i) (some j) = tensorProductAt t1 t2 i j := by
  cases i <;> rfl

/-- **C04** (contraction).  With indices `i`, `j` of different type, both slots disappear from the
configuration and the components are `Σ_k T1(…k…) T2(…k…)`. -/
theorem C04_contraction (t1 t2 : Obj R) (i j : Nat) (h1 : t1.WF n) (h2 : t2.WF n)
    (hi : i < t1.config.length) (hj : j < t2.config.length)
    (hne : t1.config[i] ≠ t2.config[j]) :
    Returns (tensorProduct t1 t2 (some i) (some j)) fun t =>
      t.config = t1.config.eraseIdx i ++ t2.config.eraseIdx j ∧
      t.arr.shape = List.replicate (t1.config.length - 1 + (t2.config.length - 1)) n ∧
      t.parent = t1.parent ∧ t.syms = t1.syms ∧
      ∀ a b : List Nat, a.length = t1.config.length - 1 → b.length = t2.config.length - 1 →
        t.arr.get (a ++ b) =
          ∑ k ∈ Finset.range n, t1.arr.get (a.insertIdx i k) * t2.arr.get (b.insertIdx j k) := by
  set r1 := t1.config.length with hr1
  set r2 := t2.config.length with hr2
  have hsh : (t1.arr.tensorproduct t2.arr).shape = List.replicate (r1 + r2) n := by
    simp only [NDArr.tensorproduct]
    rw [show t1.arr.shape = _ from h1.cube, show t2.arr.shape = _ from h2.cube]
    exact List.replicate_append_replicate
  have e1 : (t1.arr.tensorproduct t2.arr).shape[i]? = some n := by
    rw [hsh, List.getElem?_replicate]; simp; omega
  have e2 : (t1.arr.tensorproduct t2.arr).shape[r1 + j]? = some n := by
    rw [hsh, List.getElem?_replicate]; simp; omega
  have hcsh : ((t1.arr.tensorproduct t2.arr).shape.eraseIdx (r1 + j)).eraseIdx i
      = List.replicate (r1 - 1 + (r2 - 1)) n := by
    rw [hsh]
    apply List.ext_getElem
    · rw [List.length_eraseIdx, List.length_eraseIdx]
      simp only [List.length_replicate]
      split_ifs <;> omega
    · intro k _ _
      simp [List.getElem_eraseIdx]
  have hl : (t1.config.take i ++ t1.config.drop (i + 1)) ++
      (t2.config.take j ++ t2.config.drop (j + 1)) = t1.config.eraseIdx i ++ t2.config.eraseIdx j := by
    rw [List.eraseIdx_eq_take_drop_succ, List.eraseIdx_eq_take_drop_succ]
  have hcl : (t1.config.eraseIdx i ++ t2.config.eraseIdx j).length = r1 - 1 + (r2 - 1) := by
    rw [List.length_append, List.length_eraseIdx, List.length_eraseIdx, if_pos hi, if_pos hj]
  have hv : ValidConfig (t1.config.eraseIdx i ++ t2.config.eraseIdx j) := by
    intro ch h
    rcases List.mem_append.mp h with h | h
    · exact h1.valid ch (List.mem_of_mem_eraseIdx h)
    · exact h2.valid ch (List.mem_of_mem_eraseIdx h)
  have hmk := fun (g : List Nat → R) => mkBase_cube (n := n)
    (⟨((t1.arr.tensorproduct t2.arr).shape.eraseIdx (r1 + j)).eraseIdx i, g⟩ : NDArr R)
    (t1.config.eraseIdx i ++ t2.config.eraseIdx j) t1.syms t1.parent (some "GenericTensor") hv
    (by rw [hcl]; exact hcsh) h1.syms
  have e : tensorProduct t1 t2 (some i) (some j) = .ok ⟨.base,
      ⟨((t1.arr.tensorproduct t2.arr).shape.eraseIdx (r1 + j)).eraseIdx i, fun idx =>
        ∑ k ∈ Finset.range n,
          (t1.arr.tensorproduct t2.arr).get ((idx.insertIdx i k).insertIdx (r1 + j) k)⟩,
      t1.config.eraseIdx i ++ t2.config.eraseIdx j,
      (t1.config.eraseIdx i ++ t2.config.eraseIdx j).length, t1.syms, t1.parent,
      some "GenericTensor"⟩ := by
    rw [tensorProduct_at]
    unfold tensorProductAt
    rw [List.getElem?_eq_getElem hi, List.getElem?_eq_getElem hj]
    simp only [if_neg hne]
    unfold NDArr.tensorcontraction
    rw [← hr1, e1, e2]
    simp only [if_true]
    rw [hl]
    exact hmk _
  refine ⟨_, e, rfl, hcsh, rfl, rfl, ?_⟩
  intro a b ha hb
  show (∑ k ∈ Finset.range n, (t1.arr.tensorproduct t2.arr).get
    (((a ++ b).insertIdx i k).insertIdx (r1 + j) k)) = _
  refine Finset.sum_congr rfl fun k _ => ?_
  have hrk : t1.arr.rank = r1 := by
    simp [NDArr.rank, show t1.arr.shape = _ from h1.cube]; rfl
  have hla : (a.insertIdx i k).length = r1 := by
    rw [List.length_insertIdx]; split_ifs <;> omega
  have key : ((a ++ b).insertIdx i k).insertIdx (r1 + j) k
      = a.insertIdx i k ++ b.insertIdx j k := by
    apply List.ext_getElem
    · simp only [List.length_insertIdx, List.length_append]
      split_ifs <;> omega
    · intro m g1 g2
      simp only [List.getElem_insertIdx, List.getElem_append, hla]
      split_ifs <;> first | rfl | omega | (congr 1; omega)
  rw [key]
  simp only [NDArr.tensorproduct, hrk]
  rw [List.take_left' hla, List.drop_left' hla]

/-- **C04** (like indices).  Contracting two upper or two lower indices raises `ValueError`. -/
theorem C04_like_indices_raise (t1 t2 : Obj R) (i j : Nat)
    (hi : i < t1.config.length) (hj : j < t2.config.length)
    (he : t1.config[i] = t2.config[j]) :
    Raises (tensorProduct t1 t2 (some i) (some j)) .valueError := by
  unfold Raises
  rw [tensorProduct_at]
  unfold tensorProductAt
  rw [List.getElem?_eq_getElem hi, List.getElem?_eq_getElem hj]
  simp [he]

/-- **C04** (one index missing, what holds).  Giving only `j` raises `TypeError`; giving only a
non-zero `i` raises `TypeError` if `T1` has an index `i` and `IndexError` if it has not.  Missing
from the full claim: `i = 0` alone, see `C04_one_index_refuted`. -/
theorem C04_one_index_raises_partial (t1 t2 : Obj R) :
    (∀ j, Raises (tensorProduct t1 t2 none (some j)) .typeError) ∧
    (∀ i, i ≠ 0 → i < t1.config.length → Raises (tensorProduct t1 t2 (some i) none) .typeError) ∧
    (∀ i, i ≠ 0 → t1.config.length ≤ i →
      Raises (tensorProduct t1 t2 (some i) none) .indexError) := by
  refine ⟨fun j => rfl, fun i hi hl => ?_, fun i hi hl => ?_⟩
  · obtain ⟨k, rfl⟩ := Nat.exists_eq_succ_of_ne_zero hi
    exact if_pos hl
  · obtain ⟨k, rfl⟩ := Nat.exists_eq_succ_of_ne_zero hi
    exact if_neg (by omega)

/-- **C04** (no such index).  Naming an index that one of the two tensors does not have raises
`IndexError`, whatever the other one is. -/
theorem C04_out_of_range (t1 t2 : Obj R) (i j : Nat)
    (h : t1.config.length ≤ i ∨ t2.config.length ≤ j) :
    Raises (tensorProduct t1 t2 (some i) (some j)) .indexError := by
  unfold Raises
  rw [tensorProduct_at]
  unfold tensorProductAt
  rcases h with h | h
  · rw [List.getElem?_eq_none h]
  · rw [List.getElem?_eq_none h]
    cases t1.config[i]? <;> rfl

/-- **C04** (refutation).  `tensor_product(T1, T2, i=0)` (with `j` omitted) is not an error: for all
well-formed tensors it silently returns the uncontracted outer product. -/
theorem C04_one_index_refuted (t1 t2 : Obj R) (h1 : t1.WF n) (h2 : t2.WF n) :
    Returns (tensorProduct t1 t2 (some 0) none) fun t =>
      t.config.length = t1.config.length + t2.config.length := by
  obtain ⟨t, ht, hc, -⟩ := C04_outer_product t1 t2 h1 h2
  exact ⟨t, ht, by simp [hc]⟩

/-- a vector and a covector in two dimensions -/
def exVec : Obj ℚ :=
  ⟨.vector, ⟨[2], fun idx => if idx = [0] then 3 else 5⟩, ['u'], 1, ["t", "x"], none, none⟩
/-- a covector -/
def exCovec : Obj ℚ :=
  ⟨.vector, ⟨[2], fun idx => if idx = [0] then 7 else 11⟩, ['l'], 1, ["t", "x"], none, none⟩
theorem exVec_wf : exVec.WF 2 :=
  ⟨rfl, rfl, rfl, by intro ch h; simp [exVec] at h; simp [h], Or.inr rfl⟩
theorem exCovec_wf : exCovec.WF 2 :=
  ⟨rfl, rfl, rfl, by intro ch h; simp [exCovec] at h; simp [h], Or.inr rfl⟩

/-- `v^a w_a = 3·7 + 5·11` -/
example : Returns (tensorProduct exVec exCovec (some 0) (some 0)) fun t =>
    t.config = [] ∧ t.arr.get [] = 76 := by
  obtain ⟨t, h, hc, -, -, -, hg⟩ := C04_contraction exVec exCovec 0 0 exVec_wf exCovec_wf
    (by decide) (by decide) (by decide)
  refine ⟨t, h, by simpa [exVec, exCovec] using hc, ?_⟩
  have := hg [] [] rfl rfl
  simp only [List.append_nil] at this
  rw [this, Finset.sum_range_succ, Finset.sum_range_one]
  norm_num [exVec, exCovec]

example : Returns (tensorProduct exVec exTensor none none) fun t => t.config = ['u', 'l', 'l'] := by
  obtain ⟨t, h, hc, -⟩ := C04_outer_product exVec exTensor exVec_wf exTensor_wf
  exact ⟨t, h, hc⟩

example : Raises (tensorProduct exVec exVec (some 0) (some 0)) .valueError :=
  C04_like_indices_raise _ _ 0 0 (by decide) (by decide) rfl

example : Raises (tensorProduct exVec exCovec (some 0) (some 1)) .indexError :=
  C04_out_of_range _ _ 0 1 (Or.inr (by decide))

/-! ## C05 `lorentz_transform` -/

/-- The matrix applied to a slot by `lorentz_transform`: `Λ^i_j` for upper, `Λ^j_i` for lower. -/
def lorentzSlot (L : Matrix (Fin n) (Fin n) R) (ch : Char) : Matrix (Fin n) (Fin n) R :=
  if ch = 'u' then L else L.transpose

theorem lorentzLoop_ok {r : Nat} (tm : NDArr R) (htm : tm.shape = [n, n]) :
    ∀ (cfg : Config) (i : Nat) (t : NDArr R), i + cfg.length = r → t.IsCube r n →
      ∃ t', lorentzLoop tm cfg i t = .ok t' ∧ t'.IsCube r n ∧
        t'.comp r n = applySlots
          (fun s : Fin r => if (s : Nat) < i then 1
            else lorentzSlot (tm.toMatrix n) (cfg.getD (s - i) 'u')) (t.comp r n) := by
  intro cfg
  induction cfg with
  | nil =>
    intro i t hi ht
    refine ⟨t, rfl, ht, ?_⟩
    have : (fun s : Fin r => if (s : Nat) < i then (1 : Matrix (Fin n) (Fin n) R)
        else lorentzSlot (tm.toMatrix n) (([] : Config).getD (s - i) 'u')) = fun _ => 1 := by
      funext s; rw [if_pos]; have := s.2; simp at hi; omega
    rw [this, applySlots_one]
  | cons a rest ih =>
    intro i t hi ht
    simp only [List.length_cons] at hi
    have hir : i < r := by omega
    obtain ⟨t1, h1, h2, h3⟩ := contractSlot_comp tm t (if a = 'u' then 1 else 0) ⟨i, hir⟩
      (by split_ifs <;> omega) htm ht
    obtain ⟨t', h1', h2', h3'⟩ := ih (i + 1) t1 (by omega) h2
    refine ⟨t', ?_, h2', ?_⟩
    · unfold lorentzLoop
      by_cases ha : a = 'u'
      · simp only [ha, if_true] at h1 ⊢
        rw [h1]; exact h1'
      · simp only [ha, if_false] at h1 ⊢
        rw [h1]; exact h1'
    · rw [h3', h3, applySlots_comp]
      congr 1
      funext s
      by_cases h' : s = ⟨i, hir⟩
      · subst h'
        simp only [Function.update_self, Nat.lt_succ_self, if_true, one_mul]
        simp only [lt_irrefl, if_false, Nat.sub_self, List.getD_cons_zero, lorentzSlot, slotOf]
        split_ifs <;> simp_all
      · rw [Function.update_of_ne h', mul_one]
        have hne : (s : Nat) ≠ i := fun e => h' (Fin.ext e)
        by_cases h : (s : Nat) < i
        · simp [h, Nat.lt_succ_of_lt h]
        · rw [if_neg (by omega), if_neg h]
          obtain ⟨k, hk⟩ : ∃ k, (s : Nat) - i = k + 1 := ⟨s - i - 1, by omega⟩
          rw [hk, show (s : Nat) - (i + 1) = k by omega]
          simp

theorem lorentz_ok {r : Nat} (t : Obj R) (tm : NDArr R) (htm : tm.shape = [n, n]) (ht : t.WF n)
    (hr : t.config.length = r) (hk : t.kind ≠ .tensor) :
    Returns (t.lorentzTransform tm) fun t' =>
      t'.WF n ∧ t'.config = t.config ∧ t'.parent = none ∧ t'.syms = t.syms ∧
      (t'.kind = t.kind ∨ t.kind = .ricciScalar) ∧
      t'.name = changeName t.name "__lt" ∧
      t'.arr.comp r n = applySlots
        (fun s : Fin r => lorentzSlot (tm.toMatrix n) (t.config[(s : Nat)]'(by have := s.2; omega)))
        (t.arr.comp r n) := by
  subst hr
  obtain ⟨a, h1, h2, h3⟩ := lorentzLoop_ok tm htm t.config 0 t.arr (Nat.zero_add _) ht.cube
  have hbase := mkBase_cube (n := n) a t.config t.syms none (changeName t.name "__lt") ht.valid h2
    ht.syms
  have h3' : a.comp t.config.length n = applySlots
      (fun s : Fin t.config.length => lorentzSlot (tm.toMatrix n) t.config[(s : Nat)])
      (t.arr.comp t.config.length n) := by
    rw [h3]; congr 1; funext s
    simp only [Nat.not_lt_zero, if_false, Nat.sub_zero]
    rw [List.getD_eq_getElem?_getD, List.getElem?_eq_getElem s.2]; rfl
  have htake : t.config.take t.order = t.config := by rw [ht.order]; simp
  have hk' := ht.kind
  by_cases hsc : t.kind = .base ∨ t.kind = .ricciScalar
  · refine ⟨⟨.base, a, t.config, t.config.length, t.syms, none, changeName t.name "__lt"⟩, ?_, ?_⟩
    · unfold Obj.lorentzTransform
      rw [htake, h1]
      show (mkBase (.arr a) _ _ _ _ >>= _) = _
      rw [hbase]
      rcases hsc with h | h <;> rw [h] <;> rfl
    · refine ⟨⟨h2, ht.syms, rfl, ht.valid, Or.inl rfl⟩, rfl, rfl, rfl, ?_, rfl, h3'⟩
      rcases hsc with h | h
      · left; exact h.symm
      · right; exact h
  · have hko : t.kind.order = some t.config.length := by
      rcases hk' with h | h
      · exfalso
        cases hkk : t.kind <;> simp_all [Kind.order]
      · exact h
    have hmk := mkKind_cube (n := n) t.kind a t.config t.syms none (changeName t.name "__lt")
      ht.valid h2 ht.syms hko
    refine ⟨⟨t.kind, a, t.config, t.config.length, t.syms, none, changeName t.name "__lt"⟩, ?_, ?_⟩
    · unfold Obj.lorentzTransform
      rw [htake, h1]
      show (mkBase (.arr a) _ _ _ _ >>= _) = _
      rw [hbase]
      cases hkk : t.kind <;> simp_all <;> exact hmk
    · exact ⟨⟨h2, ht.syms, rfl, ht.valid, Or.inr hko⟩, rfl, rfl, rfl, Or.inl rfl, rfl, h3'⟩

/-- **C05** (components).  `lorentz_transform(L)` keeps class and configuration, forgets the parent
metric, and its components are `Σ_j Π_s M_s(i_s,j_s) T(j)` with `M_s(i,j) = L[i,j]` for an upper slot
and `L[j,i]` for a lower slot. -/
theorem C05_lorentz_components (t : Obj R) (tm : NDArr R) (htm : tm.shape = [n, n]) (ht : t.WF n)
    (hk : t.kind ≠ .tensor) :
    Returns (t.lorentzTransform tm) fun t' =>
      t'.WF n ∧ t'.config = t.config ∧ t'.parent = none ∧
      ∀ i : Fin t.config.length → Fin n, t'.arr.get (multiIx i) =
        ∑ j : Fin t.config.length → Fin n,
          (∏ s : Fin t.config.length,
            if t.config[(s : Nat)] = 'u' then tm.get [i s, j s] else tm.get [j s, i s])
          * t.arr.get (multiIx j) := by
  obtain ⟨t', h1, h2, h3, h4, -, -, -, h5⟩ := lorentz_ok t tm htm ht rfl hk
  refine ⟨t', h1, h2, h3, h4, fun i => ?_⟩
  have := congrFun h5 i
  rw [show t'.arr.get (multiIx i) = t'.arr.comp t.config.length n i from rfl, this]
  unfold applySlots
  refine Finset.sum_congr rfl fun j _ => ?_
  congr 1
  refine Finset.prod_congr rfl fun s _ => ?_
  show lorentzSlot (tm.toMatrix n) t.config[(s : Nat)] (i s) (j s) = _
  unfold lorentzSlot
  split_ifs <;> rfl

/-- **C05** (identity).  The identity matrix changes no component. -/
theorem C05_lorentz_identity (t : Obj R) (tm : NDArr R) (htm : tm.shape = [n, n])
    (hid : ∀ i j : Fin n, tm.get [i, j] = if i = j then 1 else 0) (ht : t.WF n)
    (hk : t.kind ≠ .tensor) :
    Returns (t.lorentzTransform tm) fun t' =>
      ∀ i : Fin t.config.length → Fin n, t'.arr.get (multiIx i) = t.arr.get (multiIx i) := by
  obtain ⟨t', h1, -, -, -, -, -, -, h5⟩ := lorentz_ok t tm htm ht rfl hk
  refine ⟨t', h1, fun i => ?_⟩
  have hone : tm.toMatrix n = 1 := by
    funext i j; simp [NDArr.toMatrix, hid, Matrix.one_apply]
  rw [hone] at h5
  have : (fun s : Fin t.config.length =>
      lorentzSlot (1 : Matrix (Fin n) (Fin n) R) t.config[(s : Nat)]) = fun _ => 1 := by
    funext s; simp [lorentzSlot]
  rw [this, applySlots_one] at h5
  exact congrFun h5 i

/-- **C05** (composition).  Transforming by `L` and then by `L'` equals, for a tensor with only upper
indices, transforming once by `L' L`, and for only lower indices, by `L L'`. -/
theorem C05_lorentz_composition (t : Obj R) (L L' P : NDArr R) (hL : L.shape = [n, n])
    (hL' : L'.shape = [n, n]) (hP : P.shape = [n, n]) (ht : t.WF n) (hk : t.kind ≠ .tensor)
    (hk2 : t.kind ≠ .ricciScalar)
    (h : ((∀ ch ∈ t.config, ch = 'u') ∧ P.toMatrix n = L'.toMatrix n * L.toMatrix n) ∨
         ((∀ ch ∈ t.config, ch = 'l') ∧ P.toMatrix n = L.toMatrix n * L'.toMatrix n)) :
    Returns (t.lorentzTransform L) fun t1 =>
      Returns (t1.lorentzTransform L') fun t2 =>
        Returns (t.lorentzTransform P) fun t3 =>
          ∀ i : Fin t.config.length → Fin n, t2.arr.get (multiIx i) = t3.arr.get (multiIx i) := by
  obtain ⟨t1, e1, w1, c1, -, -, k1, -, f1⟩ := lorentz_ok t L hL ht rfl hk
  have hk1 : t1.kind = t.kind := k1.resolve_right hk2
  obtain ⟨t2, e2, w2, c2, -, -, k2, -, f2⟩ := lorentz_ok t1 L' hL' w1
    (congrArg List.length c1) (by rw [hk1]; exact hk)
  obtain ⟨t3, e3, w3, c3, -, -, k3, -, f3⟩ := lorentz_ok t P hP ht rfl hk
  refine ⟨t1, e1, t2, e2, t3, e3, fun i => ?_⟩
  suffices hh : t2.arr.comp t.config.length n = t3.arr.comp t.config.length n from congrFun hh i
  rw [f2, f1, f3, applySlots_comp]
  congr 1
  funext s
  simp only [c1]
  rcases h with ⟨hu, hp⟩ | ⟨hl, hp⟩
  · have := hu _ (List.getElem_mem s.2)
    simp [lorentzSlot, this, hp]
  · have := hl _ (List.getElem_mem s.2)
    simp [lorentzSlot, this, hp]

example : Returns (exTensor.lorentzTransform (NDArr.ofMatrix !![2, 1; 1, 1])) fun t1 =>
      Returns (t1.lorentzTransform (NDArr.ofMatrix !![1, 3; 0, 1])) fun t2 =>
        Returns (exTensor.lorentzTransform (NDArr.ofMatrix !![2, 7; 1, 4])) fun t3 =>
          ∀ i : Fin 2 → Fin 2, t2.arr.get (multiIx i) = t3.arr.get (multiIx i) :=
  C05_lorentz_composition exTensor _ _ _ rfl rfl rfl exTensor_wf (by simp [exTensor])
    (by simp [exTensor]) (Or.inr ⟨by intro ch h; simp [exTensor] at h; exact h, by
      simp only [toMatrix_ofMatrix]
      ext i j; fin_cases i <;> fin_cases j <;> simp [Matrix.mul_apply, Fin.sum_univ_two] <;> norm_num⟩)

/-! ## C06 contraction invariance -/

/-- `v` and `w` are a vector and a covector object in `n` dimensions. -/
def IsVec (v : Obj R) (n : Nat) : Prop := v.WF n ∧ v.kind = .vector ∧ v.config = ['u']
/-- see `IsVec` -/
def IsCovec (w : Obj R) (n : Nat) : Prop := w.WF n ∧ w.kind = .vector ∧ w.config = ['l']

/-- the contraction `v^a w_a` of two one-index arrays -/
def pairing (n : Nat) (v w : Obj R) : R := ∑ a : Fin n, v.arr.get [a] * w.arr.get [a]

/-- **C06** (what holds, exactly).  A vector and a covector transformed by `lorentz_transform(L)` keep
their contraction for all vectors and covectors if and only if `L * L = 1`.  The full claim (every
invertible `L`, in particular every boost) fails, see `C06_boost_refuted`: lower indices are
transformed with `Lᵀ` instead of the inverse transpose. -/
theorem C06_contraction_invariant_iff_partial (L : NDArr R) (hL : L.shape = [n, n]) :
    (∀ v w : Obj R, IsVec v n → IsCovec w n →
      Returns (v.lorentzTransform L) fun v' => Returns (w.lorentzTransform L) fun w' =>
        pairing n v' w' = pairing n v w) ↔ L.toMatrix n * L.toMatrix n = 1 := by
  have key : ∀ v w : Obj R, IsVec v n → IsCovec w n →
      Returns (v.lorentzTransform L) fun v' => Returns (w.lorentzTransform L) fun w' =>
        pairing n v' w' =
          ∑ b : Fin n, ∑ c : Fin n, (L.toMatrix n * L.toMatrix n) c b * v.arr.get [b] * w.arr.get [c] := by
    rintro v w ⟨hv, hvk, hvc⟩ ⟨hw, hwk, hwc⟩
    obtain ⟨v', e1, -, -, -, -, -, -, f1⟩ := lorentz_ok (r := 1) v L hL hv (by rw [hvc]; rfl)
      (by rw [hvk]; decide)
    obtain ⟨w', e2, -, -, -, -, -, -, f2⟩ := lorentz_ok (r := 1) w L hL hw (by rw [hwc]; rfl)
      (by rw [hwk]; decide)
    refine ⟨v', e1, w', e2, ?_⟩
    have hsum : ∀ (M : Matrix (Fin n) (Fin n) R) (T : Tns R 1 n) (a : Fin n),
        applySlots (fun _ => M) T (fun _ => a) = ∑ b : Fin n, M a b * T (fun _ => b) := by
      intro M T a
      unfold applySlots
      rw [← (Equiv.funUnique (Fin 1) (Fin n)).symm.sum_comp]
      refine Finset.sum_congr rfl fun b _ => ?_
      simp [Equiv.funUnique]
      rfl
    have g1 : ∀ a : Fin n, v'.arr.get [(a : Nat)] = ∑ b : Fin n, L.toMatrix n a b * v.arr.get [(b : Nat)] := by
      intro a
      have := congrFun f1 (fun _ => a)
      have hs : (fun s : Fin 1 => lorentzSlot (L.toMatrix n)
          (v.config[(s : Nat)]'(by rw [hvc]; exact s.2))) = fun _ => L.toMatrix n := by
        funext s; simp [hvc, lorentzSlot]
      rw [hs, hsum] at this
      simpa [NDArr.comp, multiIx] using this
    have g2 : ∀ a : Fin n, w'.arr.get [(a : Nat)] = ∑ b : Fin n, L.toMatrix n b a * w.arr.get [(b : Nat)] := by
      intro a
      have := congrFun f2 (fun _ => a)
      have hs : (fun s : Fin 1 => lorentzSlot (L.toMatrix n)
          (w.config[(s : Nat)]'(by rw [hwc]; exact s.2))) = fun _ => (L.toMatrix n).transpose := by
        funext s; simp [hwc, lorentzSlot]
      rw [hs, hsum] at this
      simpa [NDArr.comp, multiIx] using this
    unfold pairing
    simp only [g1, g2, Matrix.mul_apply, Finset.sum_mul, Finset.mul_sum]
    rw [Finset.sum_comm]
    conv_lhs => arg 2; ext x; rw [Finset.sum_comm]
    refine (Finset.sum_comm.trans ?_)
    refine Finset.sum_congr rfl fun b _ => ?_
    refine Finset.sum_congr rfl fun c _ => Finset.sum_congr rfl fun a _ => by ring
  constructor
  · intro h
    ext c b
    set v : Obj R := ⟨.vector, ⟨[n], fun idx => if idx = [(b : Nat)] then 1 else 0⟩, ['u'], 1,
      (List.replicate n "x"), none, none⟩ with hv
    set w : Obj R := ⟨.vector, ⟨[n], fun idx => if idx = [(c : Nat)] then 1 else 0⟩, ['l'], 1,
      (List.replicate n "x"), none, none⟩ with hw
    have hvv : IsVec v n := ⟨⟨rfl, by simp [v], rfl, by intro ch h; simp [v] at h; simp [h],
      Or.inr rfl⟩, rfl, rfl⟩
    have hww : IsCovec w n := ⟨⟨rfl, by simp [w], rfl, by intro ch h; simp [w] at h; simp [h],
      Or.inr rfl⟩, rfl, rfl⟩
    obtain ⟨v', e1, w', e2, p⟩ := h v w hvv hww
    obtain ⟨v'', e1', w'', e2', p'⟩ := key v w hvv hww
    rw [e1] at e1'; rw [e2] at e2'
    injection e1' with e1'; injection e2' with e2'
    subst e1'; subst e2'
    rw [p] at p'
    have hl : pairing n v w = if c = b then 1 else 0 := by
      unfold pairing
      simp only [v, w, List.cons.injEq, and_true, Fin.val_inj]
      simp [eq_comm]
    rw [hl] at p'
    rw [Matrix.one_apply, p']
    simp only [v, w, List.cons.injEq, and_true, Fin.val_inj]
    simp
  · intro h v w hv hw
    obtain ⟨v', e1, w', e2, p⟩ := key v w hv hw
    refine ⟨v', e1, w', e2, ?_⟩
    show pairing n v' w' = pairing n v w
    rw [p, h]
    unfold pairing
    simp [Matrix.one_apply]

/-- The boost with velocity 3/5 (γ = 5/4) in 1+1 dimensions, and its defining property `Λᵀ η Λ = η`. -/
def boost : NDArr ℚ := NDArr.ofMatrix !![5/4, -(3/4); -(3/4), 5/4]

/-- **C06** (refutation).  A genuine Lorentz boost (it preserves the Minkowski metric) changes the
contraction of some vector with some covector. -/
theorem C06_boost_refuted :
    ((boost.toMatrix 2).transpose * !![-1, 0; 0, 1] * boost.toMatrix 2 = !![-1, 0; 0, 1]) ∧
    ¬ (∀ v w : Obj ℚ, IsVec v 2 → IsCovec w 2 →
      Returns (v.lorentzTransform boost) fun v' => Returns (w.lorentzTransform boost) fun w' =>
        pairing 2 v' w' = pairing 2 v w) := by
  constructor
  · simp only [boost, toMatrix_ofMatrix]
    ext i j
    fin_cases i <;> fin_cases j <;>
      simp [Matrix.mul_apply, Fin.sum_univ_two, Matrix.transpose_apply] <;> norm_num
  · rw [C06_contraction_invariant_iff_partial boost rfl]
    intro h
    have := congrFun (congrFun h 0) 0
    simp only [boost, toMatrix_ofMatrix] at this
    simp [Matrix.mul_apply, Fin.sum_univ_two] at this
    norm_num at this

end
end Einpy
