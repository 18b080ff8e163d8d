import Mathlib.Algebra.BigOperators.Fin
import Mathlib.LinearAlgebra.Matrix.Notation
import Mathlib.Data.Rat.Defs
import Mathlib.Tactic.FieldSimp
import Mathlib.Tactic.LinearCombination
import Verif.Tensor.Model

/-!
# `TransformationMatrix` of `symbolic/helpers.py` (C60)

Expressions are elements of a field `K`; sympy's complex infinity `zoo` is `none`.  `D s` is the derivative with respect to
the symbol `s`.
-/

namespace Einpy.Misc

section
variable {K σ : Type} [Field K] [DecidableEq K]

/-- sympy's `1 / x`: `1 / 0` is `zoo` and `1 / zoo` is 0. -/
def recip : Option K → Option K
  | some x => if x = 0 then none else some x⁻¹
  | none => some 0

/-- A `TransformationMatrix` object; `inv` is the cache `_inv`. -/
structure TransfMat (K σ : Type) where
  arr : NDArr (Option K)
  oldCoords : List σ
  newCoords : List σ
  old2new : Option (List K)
  new2old : Option (List K)
  inv : Option (NDArr (Option K))

/-- helpers.py:72-134: `__new__` and `__init__`, the array having been built from the arguments `iterable` and `shape`. -/
def TransfMat.new (arr : NDArr (Option K)) (oldCoords newCoords : List σ) (old2new new2old : Option (List K)) :
    Py (TransfMat K σ) :=
  if arr.rank ≠ 2 then .error .valueError
  else .ok ⟨arr, oldCoords, newCoords, old2new, new2old, none⟩

/-- `derive_by_array(new2old, new_coords)` for two lists: entry (i, j) is ∂ new2old[j] / ∂ new_coords[i]. -/
def deriveByArray (D : σ → K → K) (exprs : List K) (coords : List σ) : NDArr (Option K) :=
  ⟨[coords.length, exprs.length], fun idx => match idx with
    | [i, j] => (coords[i]?).bind fun s => (exprs[j]?).map fun e => D s e
    | _ => none⟩

/-- helpers.py:136-165 `from_new2old`. -/
def TransfMat.fromNew2old (D : σ → K → K) (oldCoords newCoords : List σ) (new2old : List K) : Py (TransfMat K σ) :=
  TransfMat.new ((deriveByArray D new2old newCoords).map recip) oldCoords newCoords none (some new2old)

/-- helpers.py:167-169 `from_old2new`. -/
def TransfMat.fromOld2new (_oldCoords _newCoords : List σ) (_old2new _new2old : Option (List K)) : Py (TransfMat K σ) :=
  .error .notImplementedError

/-- helpers.py:171-187 `inv`: the result and the object after the call. -/
def TransfMat.invert (m : TransfMat K σ) : NDArr (Option K) × TransfMat K σ :=
  match m.inv with
  | some i => (i, m)
  | none => (m.arr.map recip, { m with inv := some (m.arr.map recip) })

/-! ## Specification -/

/-- The array holds the n × n matrix `A`: no entry is `zoo`. -/
def Holds (a : NDArr (Option K)) (n : ℕ) (A : Matrix (Fin n) (Fin n) K) : Prop :=
  a.shape = [n, n] ∧ ∀ i j : Fin n, a.get [(i:ℕ), (j:ℕ)] = some (A i j)

/-- The array `b` is the inverse of the matrix held by `a`. -/
def IsInverseOf (b a : NDArr (Option K)) (n : ℕ) : Prop :=
  ∃ A B, Holds a n A ∧ Holds b n B ∧ A * B = 1

/-! ## C60 -/

/-- **C60.** Arrays of a rank other than two are refused. -/
theorem C60_rank (arr : NDArr (Option K)) (o n : List σ) (f g : Option (List K)) :
    (arr.shape.length ≠ 2 → TransfMat.new arr o n f g = .error .valueError) ∧
    (arr.shape.length = 2 → ∃ m, TransfMat.new arr o n f g = .ok m ∧ m.arr = arr ∧ m.inv = none) := by
  constructor
  · intro h; exact if_pos h
  · intro h; exact ⟨_, if_neg (not_not.2 h), rfl, rfl⟩

/-- **C60.** Calling inv() again returns the same array and changes nothing. -/
theorem C60_repeat (m : TransfMat K σ) :
    m.invert.2.invert = (m.invert.1, m.invert.2) ∧ m.invert.2.arr = m.arr := by
  unfold TransfMat.invert
  cases h : m.inv with
  | some i => dsimp only; rw [h]; exact ⟨rfl, rfl⟩
  | none => exact ⟨rfl, rfl⟩

/-- **C60, what holds for every matrix.** For a fresh object inv() has the shape of the matrix and its entries are the
reciprocals of the entries. -/
theorem C60_reciprocal {arr : NDArr (Option K)} {o nc : List σ} {f g : Option (List K)} {m : TransfMat K σ}
    (hm : TransfMat.new arr o nc f g = .ok m) :
    m.invert.1.shape = arr.shape ∧
    (∀ idx x, arr.get idx = some x → x ≠ 0 → m.invert.1.get idx = some (1 / x)) ∧
    (∀ idx, arr.get idx = some 0 → m.invert.1.get idx = none) := by
  unfold TransfMat.new at hm
  split_ifs at hm with h
  have := Except.ok.inj hm
  subst this
  refine ⟨rfl, fun idx x hx h0 => ?_, fun idx hx => ?_⟩
  · show recip (arr.get idx) = _
    rw [hx, recip, if_neg h0, one_div]
  · show recip (arr.get idx) = _
    rw [hx, recip, if_pos rfl]

theorem inv_of_new {arr : NDArr (Option K)} {o nc : List σ} {f g : Option (List K)} {m : TransfMat K σ}
    (hm : TransfMat.new arr o nc f g = .ok m) : m.invert.1 = arr.map recip := by
  unfold TransfMat.new at hm
  split_ifs at hm with h
  have := Except.ok.inj hm
  subst this
  rfl

theorem recip_ne_zero_of {x y : K} (h : recip (some x) = some y) : x ≠ 0 ∧ y = x⁻¹ := by
  unfold recip at h
  by_cases h0 : x = 0
  · simp [h0] at h
  · exact ⟨h0, by simp [h0] at h; exact h.symm⟩

/-- **C60, partial.** For a 1 × 1 matrix inv() is the inverse.  (Missing from the claim: every larger matrix, see
`C60_refuted` and `C60_refuted_zero`.) -/
theorem C60_one_by_one_partial {arr : NDArr (Option K)} {o nc : List σ} {f g : Option (List K)} {m : TransfMat K σ}
    (hm : TransfMat.new arr o nc f g = .ok m) {A : Matrix (Fin 1) (Fin 1) K} (hA : Holds arr 1 A) (hdet : A 0 0 ≠ 0) :
    IsInverseOf m.invert.1 arr 1 := by
  refine ⟨A, Matrix.of fun i j => (A i j)⁻¹, hA, ⟨?_, fun i j => ?_⟩, ?_⟩
  · rw [inv_of_new hm]; exact hA.1
  · rw [inv_of_new hm]
    show recip (arr.get _) = _
    rw [hA.2 i j]
    have hi : i = 0 := Subsingleton.elim _ _
    have hj : j = 0 := Subsingleton.elim _ _
    rw [hi, hj, recip, if_neg hdet]
    rfl
  · ext i j
    have hi : i = 0 := Subsingleton.elim _ _
    have hj : j = 0 := Subsingleton.elim _ _
    rw [hi, hj, Matrix.mul_apply, Fin.sum_univ_one, Matrix.one_apply_eq]
    exact mul_inv_cancel₀ hdet

omit [DecidableEq K] in
theorem recip_inverse_2 {A B : Matrix (Fin 2) (Fin 2) K} (h0 : ∀ i j, A i j ≠ 0 ∧ B i j = (A i j)⁻¹) : A * B ≠ 1 := by
  intro h
  have h00 : (A * B) 0 0 = 1 := by rw [h]; exact Matrix.one_apply_eq 0
  rw [Matrix.mul_apply, Fin.sum_univ_two, (h0 0 0).2, (h0 1 0).2, mul_inv_cancel₀ (h0 0 0).1] at h00
  have : A 0 1 * (A 1 0)⁻¹ = 0 := by linear_combination h00
  rcases mul_eq_zero.1 this with h' | h'
  · exact (h0 0 1).1 h'
  · exact (h0 1 0).1 (inv_eq_zero.1 h')

/-- **C60 is violated.** For a 2 × 2 matrix inv() is never the inverse, whatever the entries. -/
theorem C60_refuted {arr : NDArr (Option K)} {o nc : List σ} {f g : Option (List K)} {m : TransfMat K σ}
    (hm : TransfMat.new arr o nc f g = .ok m) : ¬ IsInverseOf m.invert.1 arr 2 := by
  rintro ⟨A, B, hA, hB, hAB⟩
  refine recip_inverse_2 (A := A) (B := B) (fun i j => ?_) hAB
  have h := hB.2 i j
  rw [inv_of_new hm] at h
  have h' : recip (arr.get [(i:ℕ), (j:ℕ)]) = some (B i j) := h
  rw [hA.2 i j] at h'
  exact recip_ne_zero_of h'

/-- **C60 is violated.** A matrix of any size with a zero entry — every diagonal matrix larger than 1 × 1 — has an inv() with
an infinite entry, even if it is invertible. -/
theorem C60_refuted_zero {arr : NDArr (Option K)} {o nc : List σ} {f g : Option (List K)} {m : TransfMat K σ}
    (hm : TransfMat.new arr o nc f g = .ok m) {n : ℕ} {A : Matrix (Fin n) (Fin n) K} (hA : Holds arr n A) {i j : Fin n}
    (h0 : A i j = 0) : m.invert.1.get [(i:ℕ), (j:ℕ)] = none ∧ ¬ IsInverseOf m.invert.1 arr n := by
  have h1 : m.invert.1.get [(i:ℕ), (j:ℕ)] = none := by
    rw [inv_of_new hm]
    show recip (arr.get _) = none
    rw [hA.2 i j, recip, if_pos h0]
  refine ⟨h1, ?_⟩
  rintro ⟨_, B, _, hB, _⟩
  rw [hB.2 i j] at h1
  cases h1

/-- The 2 × 2 matrix (1 2; 3 4) as an array. -/
def exArr : NDArr (Option ℚ) := ⟨[2, 2], fun idx => match idx with
  | [0, 0] => some 1 | [0, 1] => some 2 | [1, 0] => some 3 | [1, 1] => some 4 | _ => none⟩

example : (∃ m, TransfMat.new (σ := ℕ) exArr [] [] none none = .ok m) ∧ Holds exArr 2 !![1, 2; 3, 4] ∧
    (!![1, 2; 3, 4] : Matrix (Fin 2) (Fin 2) ℚ) * !![-2, 1; 3 / 2, -1 / 2] = 1 := by
  refine ⟨⟨_, rfl⟩, ⟨rfl, ?_⟩, ?_⟩
  · intro i j; fin_cases i <;> fin_cases j <;> rfl
  · ext i j; fin_cases i <;> fin_cases j <;> simp [Matrix.mul_apply, Fin.sum_univ_two] <;> norm_num

variable {D : σ → K → K}

/-- **C60, from_new2old.** Entry (i, j) of the matrix is the reciprocal of ∂old_j/∂new_i, and inv() of it returns these
derivatives themselves (also where they vanish). -/
theorem C60_new2old (old new : List σ) (exprs : List K) :
    ∃ m, TransfMat.fromNew2old D old new exprs = .ok m ∧ m.new2old = some exprs ∧ m.old2new = none ∧
      m.oldCoords = old ∧ m.newCoords = new ∧
      ∀ i j s e, new[i]? = some s → exprs[j]? = some e →
        (D s e ≠ 0 → m.arr.get [i, j] = some (1 / D s e)) ∧ (D s e = 0 → m.arr.get [i, j] = none) ∧
        m.invert.1.get [i, j] = some (D s e) := by
  refine ⟨⟨(deriveByArray D exprs new).map recip, old, new, none, some exprs, none⟩, ?_, rfl, rfl, rfl, rfl, ?_⟩
  · unfold TransfMat.fromNew2old TransfMat.new
    exact if_neg (not_not.2 rfl)
  intro i j s e hs he
  have hd : (deriveByArray D exprs new).get [i, j] = some (D s e) := by
    show (new[i]?).bind _ = _
    rw [hs]; show (exprs[j]?).map _ = _
    rw [he]; rfl
  refine ⟨fun h => ?_, fun h => ?_, ?_⟩
  · show recip ((deriveByArray D exprs new).get [i, j]) = _
    rw [hd, recip, if_neg h, one_div]
  · show recip ((deriveByArray D exprs new).get [i, j]) = _
    rw [hd, recip, if_pos h]
  · show recip (recip ((deriveByArray D exprs new).get [i, j])) = _
    rw [hd]
    unfold recip
    by_cases h : D s e = 0
    · simp [h]
    · simp [h]

/-- **C60 is violated (from_new2old).** In two dimensions the matrix is never the Jacobian of the coordinate change: its
product with the matrix of the derivatives ∂old_j/∂new_i is not the unit matrix (for one coordinate it is). -/
theorem C60_refuted_new2old {m : TransfMat K σ} {s0 s1 : σ} {e0 e1 : K} {old : List σ}
    (hm : TransfMat.fromNew2old D old [s0, s1] [e0, e1] = .ok m) :
    ¬ ∃ B, Holds m.arr 2 B ∧ (!![D s0 e0, D s0 e1; D s1 e0, D s1 e1] : Matrix (Fin 2) (Fin 2) K) * B = 1 := by
  rintro ⟨B, hB, h⟩
  obtain ⟨m', hm', -, -, -, -, h'⟩ := C60_new2old (D := D) old [s0, s1] [e0, e1]
  have : m = m' := Except.ok.inj (hm.symm.trans hm')
  subst this
  have ent : ∀ (i j : Fin 2) (s : σ) (e : K), ([s0, s1] : List σ)[(i:ℕ)]? = some s → ([e0, e1] : List K)[(j:ℕ)]? = some e →
      D s e ≠ 0 ∧ B i j = (D s e)⁻¹ := by
    intro i j s e hs he
    obtain ⟨h1, h2, -⟩ := h' i j s e hs he
    have hb := hB.2 i j
    by_cases h0 : D s e = 0
    · rw [h2 h0] at hb; cases hb
    · rw [h1 h0, one_div] at hb
      exact ⟨h0, (Option.some.inj hb).symm⟩
  refine recip_inverse_2 (B := B) ?_ h
  intro i j
  fin_cases i <;> fin_cases j
  · exact ent 0 0 _ _ rfl rfl
  · exact ent 0 1 _ _ rfl rfl
  · exact ent 1 0 _ _ rfl rfl
  · exact ent 1 1 _ _ rfl rfl

/-- For one coordinate from_new2old is right. -/
theorem C60_new2old_one_partial {s : σ} {e : K} {old : List σ} (h0 : D s e ≠ 0) :
    ∃ m B, TransfMat.fromNew2old D old [s] [e] = .ok m ∧ Holds m.arr 1 B ∧
      (Matrix.of fun _ _ => D s e : Matrix (Fin 1) (Fin 1) K) * B = 1 := by
  obtain ⟨m, hm, -, -, -, -, h⟩ := C60_new2old (D := D) old [s] [e]
  refine ⟨m, Matrix.of fun _ _ => (D s e)⁻¹, hm, ⟨?_, ?_⟩, ?_⟩
  · have := Except.ok.inj hm
    rw [← this]; rfl
  · intro i j
    have hi : i = 0 := Subsingleton.elim _ _
    have hj : j = 0 := Subsingleton.elim _ _
    rw [hi, hj]
    have := (h 0 0 s e rfl rfl).1 h0
    rw [one_div] at this
    exact this
  · ext i j
    have hi : i = 0 := Subsingleton.elim _ _
    have hj : j = 0 := Subsingleton.elim _ _
    rw [hi, hj, Matrix.mul_apply, Fin.sum_univ_one, Matrix.one_apply_eq]
    exact mul_inv_cancel₀ h0

omit [Field K] [DecidableEq K] in
/-- **C60.** from_old2new is not implemented. -/
theorem C60_old2new (old new : List σ) (f g : Option (List K)) :
    TransfMat.fromOld2new old new f g = .error .notImplementedError := rfl

end

end Einpy.Misc
