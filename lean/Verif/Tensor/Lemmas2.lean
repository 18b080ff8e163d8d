import Verif.Tensor.Lemmas

namespace Einpy
open Classical

/-! ### matrices and arrays -/

theorem toMatrix_ofMatrix {R : Type*} [Zero R] {n : Nat} (m : Matrix (Fin n) (Fin n) R) :
    (NDArr.ofMatrix m).toMatrix n = m := by
  funext i j
  simp [NDArr.toMatrix, NDArr.ofMatrix]

theorem NDArr.inv_ok {R : Type*} [CommRing R] {n : Nat} (a : NDArr R) (hs : a.shape = [n, n])
    (hu : IsUnit (a.toMatrix n).det) : a.inv = .ok (NDArr.ofMatrix (a.toMatrix n)⁻¹) := by
  unfold NDArr.inv; rw [hs]; simp [hu]

theorem NDArr.inv_singular {R : Type*} [CommRing R] {n : Nat} (a : NDArr R) (hs : a.shape = [n, n])
    (hu : ¬ IsUnit (a.toMatrix n).det) : a.inv = .error .nonInvertible := by
  unfold NDArr.inv; rw [hs]; simp [hu]

theorem inv_det_unit {R : Type*} [CommRing R] {n : Nat} {g : Matrix (Fin n) (Fin n) R}
    (hu : IsUnit g.det) : IsUnit (g⁻¹).det := by
  rw [Matrix.det_nonsing_inv]; exact hu.ringInverse

/-- The two arrays `_change_config` contracts with. -/
theorem metric_dict {R : Type*} [CommRing R] {n : Nat} (m : MetricV R)
    (g : Matrix (Fin n) (Fin n) R) (h : m.Represents g) :
    ∃ lo up : MetricV R, m.lowerConfig = .ok lo ∧ lo.inv = .ok up ∧ lo.arr.shape = [n, n] ∧
      up.arr.shape = [n, n] ∧ lo.arr.toMatrix n = g ∧ up.arr.toMatrix n = g⁻¹ ∧
      lo.config = ['l', 'l'] ∧ lo.syms = m.syms := by
  obtain ⟨hs, hu, h⟩ := h
  rcases h with ⟨hc, hg⟩ | ⟨hc, hg⟩
  · refine ⟨m, ⟨NDArr.ofMatrix g⁻¹, ['u', 'u'], m.syms,
      changeName m.name ("__" ++ String.ofList ['u', 'u'])⟩,
      by simp [MetricV.lowerConfig, hc], ?_, hs, rfl, hg, toMatrix_ofMatrix _, hc, rfl⟩
    simp only [MetricV.inv, hc, MetricV.changeConfig]
    rw [NDArr.inv_ok m.arr hs (by rw [hg]; exact hu), hg]
    simp
  · have hu' : IsUnit (m.arr.toMatrix n).det := by rw [hg]; exact inv_det_unit hu
    have hgg : (m.arr.toMatrix n)⁻¹ = g := by
      rw [hg, Matrix.nonsing_inv_nonsing_inv _ hu]
    refine ⟨⟨NDArr.ofMatrix g, ['l', 'l'], m.syms,
        changeName m.name ("__" ++ String.ofList ['l', 'l'])⟩,
      ⟨NDArr.ofMatrix g⁻¹, ['u', 'u'], m.syms,
        changeName (changeName m.name ("__" ++ String.ofList ['l', 'l']))
          ("__" ++ String.ofList ['u', 'u'])⟩, ?_, ?_, rfl,
      rfl, toMatrix_ofMatrix _, toMatrix_ofMatrix _, rfl, rfl⟩
    · simp only [MetricV.lowerConfig, MetricV.inv, hc, MetricV.changeConfig]
      rw [NDArr.inv_ok m.arr hs hu', hgg]
      simp
    · simp only [MetricV.inv, MetricV.changeConfig]
      rw [NDArr.inv_ok (n := n) (NDArr.ofMatrix g) rfl (by rw [toMatrix_ofMatrix]; exact hu),
        toMatrix_ofMatrix]
      simp

/-! ### the chain of contractions -/

/-- matrix applied for one entry of the difference list -/
def actMat {R : Type*} [CommRing R] (lo up : NDArr R) (n : Nat) (a : Int) :
    Matrix (Fin n) (Fin n) R :=
  if a = 0 then 1 else if a = 1 then up.toMatrix n else lo.toMatrix n

theorem chain_ok {R : Type*} [CommRing R] {r n : Nat} (lo up : NDArr R)
    (hlo : lo.shape = [n, n]) (hup : up.shape = [n, n]) :
    ∀ (dl : List Int) (i : Nat) (t : NDArr R), i + dl.length = r → t.IsCube r n →
      ∃ t', chainConfigChange lo up dl i t = .ok t' ∧ t'.IsCube r n ∧
        t'.comp r n = applySlots
          (fun s : Fin r => if (s : Nat) < i then 1 else actMat lo up n (dl.getD (s - i) 0))
          (t.comp r n) := by
  intro dl
  induction dl with
  | nil =>
    intro i t hi ht
    refine ⟨t, rfl, ht, ?_⟩
    have : (fun s : Fin r => if (s : Nat) < i then (1 : Matrix (Fin n) (Fin n) R)
        else actMat lo up n (([] : List Int).getD (s - i) 0)) = fun _ => 1 := by
      funext s; simp [actMat]
    rw [this, applySlots_one]
  | cons a rest ih =>
    intro i t hi ht
    simp only [List.length_cons] at hi
    by_cases ha : a = 0
    · obtain ⟨t', h1, h2, h3⟩ := ih (i + 1) t (by omega) ht
      refine ⟨t', by simp [chainConfigChange, ha, h1], h2, ?_⟩
      rw [h3]
      congr 1
      funext s
      by_cases h : (s : Nat) < i
      · simp [h, Nat.lt_succ_of_lt h]
      · by_cases h' : (s : Nat) = i
        · simp [h', actMat, ha]
        · rw [if_neg (by omega), if_neg h]
          obtain ⟨k, hk⟩ : ∃ k, (s : Nat) - i = k + 1 := ⟨s - i - 1, by omega⟩
          rw [hk, show (s : Nat) - (i + 1) = k by omega]
          simp
    · have hir : i < r := by omega
      obtain ⟨t1, h1, h2, h3⟩ := contractSlot_comp (if a = 1 then up else lo) t 1 ⟨i, hir⟩
        (by omega) (by split_ifs <;> assumption) ht
      obtain ⟨t', h1', h2', h3'⟩ := ih (i + 1) t1 (by omega) h2
      refine ⟨t', ?_, h2', ?_⟩
      · simp only [chainConfigChange, ha, if_false]
        rw [h1]; exact h1'
      · rw [h3', h3, applySlots_comp]
        congr 1
        funext s
        by_cases h' : s = ⟨i, hir⟩
        · subst h'
          simp only [Function.update_self, Nat.lt_succ_self, if_true, one_mul]
          simp only [lt_irrefl, if_false, Nat.sub_self, List.getD_cons_zero, actMat, ha, slotOf]
          split_ifs <;> rfl
        · rw [Function.update_of_ne h', mul_one]
          have hne : (s : Nat) ≠ i := fun e => h' (Fin.ext e)
          by_cases h : (s : Nat) < i
          · simp [h, Nat.lt_succ_of_lt h]
          · rw [if_neg (by omega), if_neg h]
            obtain ⟨k, hk⟩ : ∃ k, (s : Nat) - i = k + 1 := ⟨s - i - 1, by omega⟩
            rw [hk, show (s : Nat) - (i + 1) = k by omega]
            simp

theorem differenceList_length (nc oc : Config) (h : nc.length = oc.length) :
    (differenceList nc oc).length = oc.length := by
  simp [differenceList, h]

theorem differenceList_getD (nc oc : Config) (h : nc.length = oc.length) (s : Nat)
    (hs : s < oc.length) :
    (differenceList nc oc).getD s 0 =
      if nc[s]'(by omega) = oc[s] then 0 else if nc[s]'(by omega) = 'u' then 1 else -1 := by
  have : s < (differenceList nc oc).length := by rw [differenceList_length nc oc h]; exact hs
  rw [List.getD_eq_getElem?_getD, List.getElem?_eq_getElem this]
  simp [differenceList]

theorem configChecker_iff (c : Config) : configChecker c = true ↔ ValidConfig c := by
  unfold configChecker ValidConfig
  simp only [List.all_eq_true, decide_eq_true_eq]
  constructor
  · intro h ch hch
    have := h ch hch
    tauto
  · intro h ch hch
    have := h ch hch
    tauto

/-- `_change_config` on a cube. -/
theorem changeConfigArr_ok {R : Type*} [CommRing R] {n : Nat} (arr : NDArr R) (oc nc : Config)
    (m : MetricV R) (g : Matrix (Fin n) (Fin n) R) (hm : m.Represents g)
    (hlen : nc.length = oc.length) (hv : ValidConfig nc) (hc : arr.IsCube oc.length n) :
    ∃ a', changeConfigArr arr oc m nc = .ok a' ∧ a'.IsCube oc.length n ∧
      a'.comp oc.length n = applySlots
        (fun s => slotMatrix g (oc[(s : Nat)]) (nc[(s : Nat)]'(by have := s.2; omega))) (arr.comp oc.length n) := by
  obtain ⟨lo, up, h1, h2, h3, h4, h5, h6, -, -⟩ := metric_dict m g hm
  obtain ⟨a', k1, k2, k3⟩ := chain_ok lo.arr up.arr h3 h4 (differenceList nc oc) 0 arr
    (by rw [differenceList_length nc oc hlen]; simp) hc
  refine ⟨a', ?_, k2, ?_⟩
  · unfold changeConfigArr
    rw [if_neg (by simp [hlen, (configChecker_iff nc).mpr hv])]
    rw [h1]
    show (lo.inv >>= fun up => chainConfigChange lo.arr up.arr (differenceList nc oc) 0 arr) = _
    rw [h2]
    exact k1
  · rw [k3]
    congr 1
    funext s
    simp only [Nat.not_lt_zero, if_false, Nat.sub_zero]
    rw [differenceList_getD nc oc hlen s s.2]
    unfold actMat slotMatrix
    by_cases e : nc[(s : Nat)]'(by have := s.2; omega) = oc[(s : Nat)]
    · simp [e]
    · have e' : ¬ oc[(s : Nat)] = nc[(s : Nat)]'(by have := s.2; omega) := fun h => e h.symm
      simp only [e, e', if_false]
      split_ifs <;> simp_all

theorem changeConfigArr_bad {R : Type*} [CommRing R] (arr : NDArr R) (oc nc : Config)
    (m : MetricV R) (h : nc.length ≠ oc.length ∨ ¬ ValidConfig nc) :
    changeConfigArr arr oc m nc = .error .valueError := by
  unfold changeConfigArr
  rw [if_pos]
  rw [configChecker_iff]
  tauto

theorem slotMatrix_mul {R : Type*} [CommRing R] {n : Nat} (g : Matrix (Fin n) (Fin n) R)
    (hu : IsUnit g.det) (a b c : Char) (ha : a = 'u' ∨ a = 'l') (hb : b = 'u' ∨ b = 'l')
    (hc : c = 'u' ∨ c = 'l') : slotMatrix g b c * slotMatrix g a b = slotMatrix g a c := by
  rcases ha with rfl | rfl <;> rcases hb with rfl | rfl <;> rcases hc with rfl | rfl <;>
    simp [slotMatrix, Matrix.mul_nonsing_inv g hu, Matrix.nonsing_inv_mul g hu]

/-! ### constructors -/

theorem mkTensor_str {R : Type*} (a : NDArr R) (c : Config) (name : Option String)
    (hv : ValidConfig c) (hl : a.shape.length = c.length) :
    mkTensor (.arr a) (.str c) name = .ok
      { kind := .tensor, arr := a, config := c, order := c.length, syms := [], parent := none,
        name := name } := by
  simp [mkTensor, (configChecker_iff c).mpr hv, hl]

theorem mkBase_cube {R : Type*} {n : Nat} (a : NDArr R) (c : Config) (syms : List String)
    (parent : Option (MetricV R)) (name : Option String)
    (hv : ValidConfig c) (ha : a.IsCube c.length n) (hs : syms.length = n) :
    mkBase (.arr a) (.seq syms) (.str c) parent name = .ok
      { kind := .base, arr := a, config := c, order := c.length, syms := syms, parent := parent,
        name := name } := by
  have hl : a.shape.length = c.length := by rw [show a.shape = _ from ha]; simp
  unfold mkBase
  rw [mkTensor_str a c name hv hl]
  have : shapeCheck a (.seq syms) = none := by
    unfold shapeCheck
    rw [show a.shape = _ from ha]
    rcases c with _ | ⟨x, c⟩
    · rfl
    · simp [List.replicate_succ, hs]
  show (match shapeCheck a (.seq syms) with | some e => _ | none => _) = _
  rw [this]

/-- the classes whose constructor takes a configuration and checks its length -/
theorem mkKind_cube {R : Type*} {n : Nat} (k : Kind) (a : NDArr R) (c : Config)
    (syms : List String) (parent : Option (MetricV R)) (name : Option String)
    (hv : ValidConfig c) (ha : a.IsCube c.length n) (hs : syms.length = n)
    (hk : k.order = some c.length) :
    mkKind k (.arr a) (.seq syms) (.str c) parent name = .ok
      { kind := k, arr := a, config := c, order := c.length, syms := syms, parent := parent,
        name := name } := by
  have h0 : k = .ricciScalar → c = [] := by
    rintro rfl; simp [Kind.order] at hk; exact List.eq_nil_of_length_eq_zero hk.symm
  have hb := mkBase_cube a c syms parent name hv ha hs
  cases k <;> simp only [Kind.order, Option.some.injEq, reduceCtorEq] at hk
  all_goals first
    | (simp only [mkKind, Kind.order, hb]; simp only [Except.bind, bind, pure, Except.pure, hk, if_true]; done)
    | (obtain rfl := h0 rfl
       simp only [mkKind, hb]; rfl)

end Einpy
