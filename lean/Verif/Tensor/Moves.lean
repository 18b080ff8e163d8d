import Verif.Tensor.Props2

/-!
# C128, C129: contractions and index moves

A contraction does not depend on which of the two indices is the upper one, nor on the order of the factors (C128); moving indices and Lorentz
transformations (C129).
-/

namespace Einpy
open Classical

section
variable {R : Type*} [CommRing R] {n : Nat}

/-- A list of `r` numbers below `n` is a multi-index. -/
theorem multiIx_of_list {r : Nat} (l : List Nat) (hl : l.length = r) (hn : ∀ k ∈ l, k < n) :
    ∃ i : Fin r → Fin n, l = multiIx i := by
  subst hl
  refine ⟨fun s => ⟨l[(s : Nat)], hn _ (List.getElem_mem s.2)⟩, ?_⟩
  apply List.ext_getElem
  · simp [multiIx]
  · intro a h1 h2
    simp [multiIx]

theorem multiIx_lt {r : Nat} (i : Fin r → Fin n) : ∀ k ∈ multiIx i, k < n := by
  intro k hk
  simp only [multiIx, List.mem_ofFn] at hk
  obtain ⟨s, rfl⟩ := hk
  exact (i s).2

/-- Changing a single slot. -/
theorem changeConfig_slot (t : Obj R) (m : MetricV R) (g : Matrix (Fin n) (Fin n) R) (i : Nat) (c : Char)
    (hk : t.kind.changeConfigTarget ≠ none) (hg : m.Represents g) (ht : t.WF n) (hi : i < t.config.length) (hc : c = 'u' ∨ c = 'l') :
    Returns (t.changeConfig (t.config.set i c) (some m)) fun t' => t'.WF n ∧ t'.config = t.config.set i c ∧
      ∀ (l : List Nat) (k : Fin n), l.length = t.config.length → (∀ x ∈ l, x < n) →
        t'.arr.get (l.set i k) = ∑ q : Fin n, slotMatrix g t.config[i] c k q * t.arr.get (l.set i q) := by
  obtain ⟨kd, hk⟩ := Option.ne_none_iff_exists'.mp hk
  have hv : ValidConfig (t.config.set i c) := by
    intro ch h
    rcases List.mem_or_eq_of_mem_set h with h | rfl
    · exact ht.valid ch h
    · exact hc
  obtain ⟨ho, -, a, e, hcube, hf⟩ := changeConfig_ok t (t.config.set i c) (some m) m g kd hk rfl hg ht rfl (by simp) hv
  refine ⟨_, e, ⟨?_, ht.syms, ?_, hv, Or.inr ?_⟩, rfl, ?_⟩
  · show a.IsCube (t.config.set i c).length n
    simpa using hcube
  · simp
  · simpa using ho
  · intro l k hl hn
    obtain ⟨ix, rfl⟩ := multiIx_of_list l hl hn
    have hs : (fun s : Fin t.config.length => slotMatrix g t.config[(s : Nat)] ((t.config.set i c)[(s : Nat)]'(by simp))) =
        Function.update (fun _ : Fin t.config.length => (1 : Matrix (Fin n) (Fin n) R)) ⟨i, hi⟩ (slotMatrix g t.config[i] c) := by
      funext s
      by_cases h : s = (⟨i, hi⟩ : Fin t.config.length)
      · subst h; simp
      · have h' : i ≠ s := fun e => h (Fin.ext e.symm)
        rw [Function.update_of_ne h, List.getElem_set_ne h']
        simp [slotMatrix]
    rw [hs, applySlots_single] at hf
    have := congrFun hf (Function.update ix ⟨i, hi⟩ k)
    simp only [NDArr.comp, Function.update_self, Function.update_idem] at this
    rw [← multiIx_set] at this
    refine this.trans (Finset.sum_congr rfl fun q _ => ?_)
    rw [← multiIx_set]

theorem insertIdx_set (l : List Nat) (i k q : Nat) : l.insertIdx i k = (l.insertIdx i q).set i k := by
  induction l generalizing i with
  | nil => cases i <;> simp [List.insertIdx]
  | cons a l ih =>
    cases i with
    | zero => simp
    | succ i => simp [List.insertIdx_succ_cons, ← ih]

/-- **C128.** The contraction of an upper with a lower index is the same if, with one and the same (symmetric) metric, the upper one is lowered
and the lower one raised before contracting: `T^{…a…} S_{…a…} = T_{…a…} S^{…a…}`, for tensors of any rank. -/
theorem C128_seesaw (t1 t2 : Obj R) (i j : Nat) (h1 : t1.WF n) (h2 : t2.WF n) (hi : i < t1.config.length) (hj : j < t2.config.length)
    (hne : t1.config[i] ≠ t2.config[j]) (hk1 : t1.kind.changeConfigTarget ≠ none) (hk2 : t2.kind.changeConfigTarget ≠ none)
    (m : MetricV R) (g : Matrix (Fin n) (Fin n) R) (hg : m.Represents g) (hsym : g.transpose = g) :
    Returns (t1.changeConfig (t1.config.set i t2.config[j]) (some m)) fun s1 =>
      Returns (t2.changeConfig (t2.config.set j t1.config[i]) (some m)) fun s2 =>
        Returns (tensorProduct t1 t2 (some i) (some j)) fun p => Returns (tensorProduct s1 s2 (some i) (some j)) fun p' =>
          p'.config = p.config ∧ p'.arr.shape = p.arr.shape ∧
          ∀ idx : Fin p.config.length → Fin n, p'.arr.get (multiIx idx) = p.arr.get (multiIx idx) := by
  obtain ⟨s1, e1, w1, c1, f1⟩ := changeConfig_slot t1 m g i t2.config[j] hk1 hg h1 hi (h2.valid _ (List.getElem_mem hj))
  obtain ⟨s2, e2, w2, c2, f2⟩ := changeConfig_slot t2 m g j t1.config[i] hk2 hg h2 hj (h1.valid _ (List.getElem_mem hi))
  have l1 : s1.config.length = t1.config.length := by rw [c1]; simp
  have l2 : s2.config.length = t2.config.length := by rw [c2]; simp
  have g1 : s1.config[i]'(by omega) = t2.config[j] := by simp [c1]
  have g2 : s2.config[j]'(by omega) = t1.config[i] := by simp [c2]
  obtain ⟨p, ep, cp, sp, -, -, fp⟩ := C04_contraction t1 t2 i j h1 h2 hi hj hne
  obtain ⟨p', ep', cp', sp', -, -, fp'⟩ := C04_contraction s1 s2 i j w1 w2 (by omega) (by omega) (by rw [g1, g2]; exact hne.symm)
  refine ⟨s1, e1, s2, e2, p, ep, p', ep', ?_, ?_, fun idx => ?_⟩
  · rw [cp', cp, c1, c2, List.eraseIdx_set_eq, List.eraseIdx_set_eq]
  · rw [sp', sp, l1, l2]
  · have hlen : p.config.length = (t1.config.length - 1) + (t2.config.length - 1) := by
      rw [cp, List.length_append, List.length_eraseIdx_of_lt hi, List.length_eraseIdx_of_lt hj]
    set L := multiIx idx with hL
    have hLlen : L.length = (t1.config.length - 1) + (t2.config.length - 1) := by rw [hL, multiIx_length, hlen]
    have hLn : ∀ k ∈ L, k < n := multiIx_lt idx
    obtain ⟨a, b, hab, ha, hb⟩ : ∃ a b, L = a ++ b ∧ a.length = t1.config.length - 1 ∧ b.length = t2.config.length - 1 :=
      ⟨L.take (t1.config.length - 1), L.drop (t1.config.length - 1), (List.take_append_drop _ _).symm, by simp; omega, by simp; omega⟩
    rw [hab] at hLn ⊢
    rw [fp' a b (by omega) (by omega), fp a b ha hb]
    rcases Nat.eq_zero_or_pos n with rfl | hn
    · simp
    have hA : ∀ x ∈ a.insertIdx i 0, x < n := by
      intro x hx
      rcases List.eq_or_mem_of_mem_insertIdx hx with rfl | hx
      · exact hn
      · exact hLn x (List.mem_append_left _ hx)
    have hB : ∀ x ∈ b.insertIdx j 0, x < n := by
      intro x hx
      rcases List.eq_or_mem_of_mem_insertIdx hx with rfl | hx
      · exact hn
      · exact hLn x (List.mem_append_right _ hx)
    have lA : (a.insertIdx i 0).length = t1.config.length := by rw [List.length_insertIdx_of_le_length (by omega)]; omega
    have lB : (b.insertIdx j 0).length = t2.config.length := by rw [List.length_insertIdx_of_le_length (by omega)]; omega
    have hprod : (slotMatrix g t1.config[i] t2.config[j]).transpose * slotMatrix g t2.config[j] t1.config[i] = 1 := by
      have hT : (slotMatrix g t1.config[i] t2.config[j]).transpose = slotMatrix g t1.config[i] t2.config[j] := by
        unfold slotMatrix
        split_ifs
        · exact Matrix.transpose_one
        · rw [Matrix.transpose_nonsing_inv, hsym]
        · exact hsym
      rw [hT, slotMatrix_mul g hg.2.1 _ _ _ (h2.valid _ (List.getElem_mem hj)) (h1.valid _ (List.getElem_mem hi))
        (h2.valid _ (List.getElem_mem hj))]
      simp [slotMatrix]
    set A := slotMatrix g t1.config[i] t2.config[j]
    set B := slotMatrix g t2.config[j] t1.config[i]
    rw [Finset.sum_range, Finset.sum_range]
    have e1 : ∀ k : Fin n, s1.arr.get (a.insertIdx i k) * s2.arr.get (b.insertIdx j k) =
        ∑ p : Fin n, ∑ q : Fin n, A k p * B k q * (t1.arr.get (a.insertIdx i p) * t2.arr.get (b.insertIdx j q)) := by
      intro k
      rw [insertIdx_set a i k 0, insertIdx_set b j k 0, f1 _ k lA hA, f2 _ k lB hB, Finset.sum_mul_sum]
      refine Finset.sum_congr rfl fun p _ => Finset.sum_congr rfl fun q _ => ?_
      rw [insertIdx_set a i p 0, insertIdx_set b j q 0]
      ring
    simp only [e1]
    rw [Finset.sum_comm]
    refine Finset.sum_congr rfl fun p _ => ?_
    rw [Finset.sum_comm]
    have e2 : ∀ q : Fin n, ∑ k : Fin n, A k p * B k q * (t1.arr.get (a.insertIdx i p) * t2.arr.get (b.insertIdx j q)) =
        (1 : Matrix (Fin n) (Fin n) R) p q * (t1.arr.get (a.insertIdx i p) * t2.arr.get (b.insertIdx j q)) := by
      intro q
      rw [← Finset.sum_mul, ← hprod, Matrix.mul_apply]
      rfl
    simp only [e2, Matrix.one_apply]
    simp

/-- **C128.** The order of the factors only permutes the slots of the result: the component of `tensor_product(T, S, i, j)` at the multi-index
`(a, b)` is the component of `tensor_product(S, T, j, i)` at `(b, a)`; the same holds for the product without contraction. -/
theorem C128_swap (t1 t2 : Obj R) (h1 : t1.WF n) (h2 : t2.WF n) :
    (∀ (i j : Nat) (hi : i < t1.config.length) (hj : j < t2.config.length), t1.config[i] ≠ t2.config[j] →
      Returns (tensorProduct t1 t2 (some i) (some j)) fun p => Returns (tensorProduct t2 t1 (some j) (some i)) fun p' =>
        ∀ a b : List Nat, a.length = t1.config.length - 1 → b.length = t2.config.length - 1 → p'.arr.get (b ++ a) = p.arr.get (a ++ b)) ∧
    Returns (tensorProduct t1 t2 none none) fun p => Returns (tensorProduct t2 t1 none none) fun p' =>
      ∀ (a : Fin t1.config.length → Fin n) (b : Fin t2.config.length → Fin n),
        p'.arr.get (multiIx b ++ multiIx a) = p.arr.get (multiIx a ++ multiIx b) := by
  constructor
  · intro i j hi hj hne
    obtain ⟨p, ep, -, -, -, -, fp⟩ := C04_contraction t1 t2 i j h1 h2 hi hj hne
    obtain ⟨p', ep', -, -, -, -, fp'⟩ := C04_contraction t2 t1 j i h2 h1 hj hi hne.symm
    refine ⟨p, ep, p', ep', fun a b ha hb => ?_⟩
    rw [fp a b ha hb, fp' b a hb ha]
    exact Finset.sum_congr rfl fun k _ => mul_comm _ _
  · obtain ⟨p, ep, -, -, -, -, fp⟩ := C04_outer_product t1 t2 h1 h2
    obtain ⟨p', ep', -, -, -, -, fp'⟩ := C04_outer_product t2 t1 h2 h1
    exact ⟨p, ep, p', ep', fun a b => by rw [fp a b, fp' b a, mul_comm]⟩

/-- The scalar `v^a w_a` and a rank-3 product, with the metric `exMetric`. -/
example : Returns (exVec.changeConfig ['l'] (some exMetric)) fun s1 => Returns (exTensor.changeConfig ['l', 'u'] (some exMetric)) fun s2 =>
    Returns (tensorProduct exVec exTensor (some 0) (some 1)) fun p => Returns (tensorProduct s1 s2 (some 0) (some 1)) fun p' =>
      p'.config = p.config ∧ p'.arr.shape = p.arr.shape ∧
      ∀ idx : Fin p.config.length → Fin 2, p'.arr.get (multiIx idx) = p.arr.get (multiIx idx) :=
  C128_seesaw exVec exTensor 0 1 exVec_wf exTensor_wf (by decide) (by decide) (by decide) (by simp [exVec, Kind.changeConfigTarget])
    (by simp [exTensor, Kind.changeConfigTarget]) exMetric _ exMetric_represents (by ext i j; fin_cases i <;> fin_cases j <;> rfl)

/-! ## C129 Lorentz transformations and index moves -/

/-- Moving indices with the metric `m` before or after the transformation `L` makes no difference, for tensors of all classes that have
`change_config`, all ranks, configurations and components. -/
def MovesCommute (n : Nat) (m : MetricV R) (L : NDArr R) : Prop :=
  ∀ (t : Obj R) (nc : Config), t.WF n → t.kind.changeConfigTarget ≠ none → nc.length = t.config.length → ValidConfig nc →
    Returns (t.changeConfig nc (some m)) fun u => Returns (u.lorentzTransform L) fun u' =>
      Returns (t.lorentzTransform L) fun t' => Returns (t'.changeConfig nc (some m)) fun w =>
        ∀ i : Fin t.config.length → Fin n, u'.arr.get (multiIx i) = w.arr.get (multiIx i)

/-- Both orders, as operations on the slots. -/
theorem moves_slots (m : MetricV R) (g : Matrix (Fin n) (Fin n) R) (hg : m.Represents g) (L : NDArr R) (hL : L.shape = [n, n]) (t : Obj R)
    (nc : Config) (ht : t.WF n) (hk : t.kind.changeConfigTarget ≠ none) (hlen : nc.length = t.config.length) (hv : ValidConfig nc) :
    Returns (t.changeConfig nc (some m)) fun u => Returns (u.lorentzTransform L) fun u' =>
      Returns (t.lorentzTransform L) fun t' => Returns (t'.changeConfig nc (some m)) fun w =>
        u'.arr.comp t.config.length n = applySlots (fun s : Fin t.config.length =>
          lorentzSlot (L.toMatrix n) (nc[(s : Nat)]'(by have := s.2; omega)) *
            slotMatrix g t.config[(s : Nat)] (nc[(s : Nat)]'(by have := s.2; omega))) (t.arr.comp t.config.length n) ∧
        w.arr.comp t.config.length n = applySlots (fun s : Fin t.config.length =>
          slotMatrix g t.config[(s : Nat)] (nc[(s : Nat)]'(by have := s.2; omega)) *
            lorentzSlot (L.toMatrix n) t.config[(s : Nat)]) (t.arr.comp t.config.length n) := by
  obtain ⟨k, hk⟩ := Option.ne_none_iff_exists'.mp hk
  have hkt : t.kind ≠ .tensor := fun e => by rw [e] at hk; cases hk
  have hks : t.kind ≠ .ricciScalar := fun e => by rw [e] at hk; cases hk
  obtain ⟨ho, hkk, a, e1, c1, f1⟩ := changeConfig_ok t nc (some m) m g k hk rfl hg ht rfl hlen hv
  have hkt' : k ≠ .tensor := fun e => by rw [e] at hkk; cases hkk
  have hwf : Obj.WF (⟨k, a, nc, t.config.length, t.syms, some m, changeName t.name ("__" ++ String.ofList nc)⟩ : Obj R) n :=
    ⟨by show a.IsCube nc.length n; rw [hlen]; exact c1, ht.syms, hlen.symm, hv, Or.inr (by show k.order = some nc.length; rw [hlen, ho])⟩
  obtain ⟨u', e2, -, -, -, -, -, -, f2⟩ := lorentz_ok _ L hL hwf hlen hkt'
  obtain ⟨t', e3, w3, c3, -, -, k3, -, f3⟩ := lorentz_ok t L hL ht rfl hkt
  have hk3 : t'.kind.changeConfigTarget = some k := by rw [k3.resolve_right hks]; exact hk
  obtain ⟨-, -, b, e4, c4, f4⟩ := changeConfig_ok t' nc (some m) m g k hk3 rfl hg w3 (congrArg List.length c3) hlen hv
  refine ⟨_, e1, u', e2, t', e3, _, e4, ?_, ?_⟩
  · rw [f2]
    show applySlots _ (a.comp t.config.length n) = _
    rw [f1, applySlots_comp]
  · show b.comp t.config.length n = _
    rw [f4, f3, applySlots_comp]
    simp only [c3]

/-- **C129** (what holds, exactly).  Raising and lowering indices commutes with `lorentz_transform(L)` if and only if `g L = Lᵀ g`.  Missing from
the full claim (every `L` that preserves the metric): see `C129_isometry_partial` and `C129_boost_refuted`. -/
theorem C129_commute_iff_partial (m : MetricV R) (g : Matrix (Fin n) (Fin n) R) (hg : m.Represents g) (L : NDArr R) (hL : L.shape = [n, n]) :
    MovesCommute n m L ↔ g * L.toMatrix n = (L.toMatrix n).transpose * g := by
  constructor
  · intro h
    ext a b
    set t : Obj R := ⟨.vector, ⟨[n], fun idx => if idx = [(b : Nat)] then 1 else 0⟩, ['u'], 1, (List.replicate n "x"), none, none⟩ with ht
    have hwf : t.WF n := ⟨rfl, by simp [t], rfl, by intro ch h; simp [t] at h; simp [h], Or.inr rfl⟩
    have hk : t.kind.changeConfigTarget ≠ none := by simp [t, Kind.changeConfigTarget]
    have hv : ValidConfig ['l'] := by intro ch h; simp at h; simp [h]
    obtain ⟨u, e1, u', e2, t', e3, w, e4, q⟩ := h t ['l'] hwf hk rfl hv
    obtain ⟨v, d1, v', d2, s', d3, y, d4, f1, f2⟩ := moves_slots m g hg L hL t ['l'] hwf hk rfl hv
    rw [e1] at d1; cases d1
    rw [e2] at d2; cases d2
    rw [e3] at d3; cases d3
    rw [e4] at d4; cases d4
    have hsum : ∀ (M : Matrix (Fin n) (Fin n) R), applySlots (r := 1) (fun _ => M) (t.arr.comp 1 n) (fun _ => a) = M a b := by
      intro M
      unfold applySlots
      rw [← (Equiv.funUnique (Fin 1) (Fin n)).symm.sum_comp, Finset.sum_eq_single b]
      · simp [Equiv.funUnique, NDArr.comp, multiIx, t]
      · intro c _ hc
        have : ¬ ((c : Nat) = (b : Nat)) := fun e => hc (Fin.ext e)
        simp [Equiv.funUnique, NDArr.comp, multiIx, t, this]
      · simp
    have q' := q (fun _ => a)
    rw [show u'.arr.get (multiIx fun _ : Fin t.config.length => a) = u'.arr.comp t.config.length n (fun _ => a) from rfl,
      show w.arr.get (multiIx fun _ : Fin t.config.length => a) = w.arr.comp t.config.length n (fun _ => a) from rfl, f1, f2] at q'
    have hs1 : (fun s : Fin t.config.length => lorentzSlot (L.toMatrix n) (['l'][(s : Nat)]'(by have := s.2; exact this)) *
        slotMatrix g t.config[(s : Nat)] (['l'][(s : Nat)]'(by have := s.2; exact this))) = fun _ => (L.toMatrix n).transpose * g := by
      funext s
      simp [t, lorentzSlot, slotMatrix]
    have hs2 : (fun s : Fin t.config.length => slotMatrix g t.config[(s : Nat)] (['l'][(s : Nat)]'(by have := s.2; exact this)) *
        lorentzSlot (L.toMatrix n) t.config[(s : Nat)]) = fun _ => g * L.toMatrix n := by
      funext s
      simp [t, lorentzSlot, slotMatrix]
    rw [hs1, hs2] at q'
    exact ((hsum _).symm.trans (q'.symm.trans (hsum _)))
  · intro h t nc ht hk hlen hv
    obtain ⟨u, e1, u', e2, t', e3, w, e4, f1, f2⟩ := moves_slots m g hg L hL t nc ht hk hlen hv
    refine ⟨u, e1, u', e2, t', e3, w, e4, fun i => ?_⟩
    have hinv : L.toMatrix n * g⁻¹ = g⁻¹ * (L.toMatrix n).transpose := by
      have := congrArg (fun M => g⁻¹ * M * g⁻¹) h
      simp only [Matrix.mul_assoc, Matrix.mul_nonsing_inv g hg.2.1, Matrix.mul_one] at this
      rwa [← Matrix.mul_assoc, Matrix.nonsing_inv_mul g hg.2.1, Matrix.one_mul] at this
    have key : u'.arr.comp t.config.length n = w.arr.comp t.config.length n := by
      rw [f1, f2]
      congr 1
      funext s
      have hc := ht.valid _ (List.getElem_mem s.2)
      have hn := hv _ (List.getElem_mem (l := nc) (n := s) (by have := s.2; omega))
      rcases hc with hc | hc <;> rcases hn with hn | hn <;> rw [hc, hn] <;> simp [slotMatrix, lorentzSlot, h, hinv]
    exact congrFun key i

/-- **C129.** For a transformation that preserves the metric, `Lᵀ g L = g`, moving indices commutes with it if and only if it is its own inverse:
reflections, but no proper boost. -/
theorem C129_isometry_partial (m : MetricV R) (g : Matrix (Fin n) (Fin n) R) (hg : m.Represents g) (L : NDArr R) (hL : L.shape = [n, n])
    (hiso : (L.toMatrix n).transpose * g * L.toMatrix n = g) : MovesCommute n m L ↔ L.toMatrix n * L.toMatrix n = 1 := by
  rw [C129_commute_iff_partial m g hg L hL]
  constructor
  · intro h
    rw [← h, Matrix.mul_assoc] at hiso
    have := congrArg (fun M => g⁻¹ * M) hiso
    simpa only [← Matrix.mul_assoc, Matrix.nonsing_inv_mul g hg.2.1, Matrix.one_mul] using this
  · intro h
    have := congrArg (fun M => M * L.toMatrix n) hiso
    simp only [Matrix.mul_assoc, h, Matrix.mul_one] at this
    exact this.symm

/-- The Minkowski metric in 1+1 dimensions. -/
def minkowski2 : MetricV ℚ := ⟨NDArr.ofMatrix !![-1, 0; 0, 1], ['l', 'l'], ["t", "x"], some "eta"⟩

theorem minkowski2_represents : minkowski2.Represents (n := 2) !![-1, 0; 0, 1] := by
  refine ⟨rfl, ?_, Or.inl ⟨rfl, toMatrix_ofMatrix _⟩⟩
  rw [Matrix.det_fin_two]; norm_num

/-- **C129** (refutation).  For the boost with velocity 3/5, which preserves the Minkowski metric, raising or lowering indices before and after the
transformation gives different tensors. -/
theorem C129_boost_refuted : ((boost.toMatrix 2).transpose * !![-1, 0; 0, 1] * boost.toMatrix 2 = !![-1, 0; 0, 1]) ∧
    ¬ MovesCommute 2 minkowski2 boost := by
  refine ⟨C06_boost_refuted.1, ?_⟩
  rw [C129_isometry_partial minkowski2 _ minkowski2_represents boost rfl C06_boost_refuted.1]
  intro h
  have := congrFun (congrFun h 0) 0
  simp only [boost, toMatrix_ofMatrix] at this
  simp [Matrix.mul_apply, Fin.sum_univ_two] at this
  norm_num at this

/-- Time reversal preserves the Minkowski metric, and commutes with moving indices. -/
example : MovesCommute 2 minkowski2 (NDArr.ofMatrix !![-1, 0; 0, 1]) := by
  rw [C129_commute_iff_partial minkowski2 _ minkowski2_represents _ rfl, toMatrix_ofMatrix]
  ext i j
  fin_cases i <;> fin_cases j <;> simp [Matrix.mul_apply, Fin.sum_univ_two, Matrix.transpose_apply]

end
end Einpy
