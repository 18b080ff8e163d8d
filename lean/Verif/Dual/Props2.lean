import Mathlib.Analysis.Real.Pi.Bounds
import Verif.Dual.Props

/-!
# Derivatives of a metric by dual numbers: C28
-/

namespace Einpy
open Classical

/-- The function `u ↦ g_{ij}(x with coordinate wrt replaced by u)`. -/
noncomputable def slice (g : MetricFn) (x : Fin 4 → ℝ) (wrt i j : Fin 4) (u : ℝ) : ℝ :=
  (g i j).den fun k => if k = wrt then u else x k

theorem evalAll_ok {ι : Type*} (env : ι → Dual) (f : Expr ι → Val) :
    ∀ es : List (Expr ι), (∀ e ∈ es, e.eval env = .ok (f e)) → evalAll env es = .ok (es.map f)
  | [], _ => rfl
  | e :: es, h => by
    have h1 := h e (by simp)
    have h2 := evalAll_ok env f es (fun e' he => h e' (by simp [he]))
    simp [evalAll, h1, h2, bind, Except.bind, pure, Except.pure]

/-- the dual coordinates `_diff_g` builds -/
noncomputable def seedEnv (x : Fin 4 → ℝ) (wrt : Int) : Fin 4 → Dual :=
  fun i => ⟨x i, if ((i : Nat) : Int) = wrt then 1 else 0⟩

theorem seed_eval (g : MetricFn) (x : Fin 4 → ℝ) (hr : ∀ i j, (g i j).Regular x) (wrt : Fin 4) (i j : Fin 4) :
    ∃ w, (g i j).eval (seedEnv x ((wrt : Nat) : Int)) = .ok w ∧ HasDerivAt (slice g x wrt i j) (derivOf w) (x wrt) := by
  have key := eval_correct (fun k u => if k = wrt then u else x k) (fun k => if k = wrt then 1 else 0) (x wrt)
    (fun k => by
      by_cases h : k = wrt
      · simp only [h, if_true]; exact hasDerivAt_id (x wrt)
      · simp only [h, if_false]; exact hasDerivAt_const (x wrt) (x k))
    (g i j) (by
      have e : (fun k => if k = wrt then x wrt else x k) = x := by
        funext k; split_ifs with h
        · rw [h]
        · rfl
      rw [e]; exact hr i j)
  obtain ⟨w, h1, -, h3⟩ := key
  refine ⟨w, ?_, h3⟩
  rw [← h1]
  congr 1
  funext k
  unfold seedEnv
  by_cases h : k = wrt
  · simp [h]
  · have : ¬ ((k : Nat) : Int) = ((wrt : Nat) : Int) := by
      intro hh; exact h (Fin.ext (by exact_mod_cast hh))
    simp [h, this]

theorem diffG_ok (g : MetricFn) (x : Fin 4 → ℝ) (hr : ∀ i j, (g i j).Regular x) (wrt i j : Fin 4) :
    ∃ d, diffG g x [(i : Nat), (j : Nat)] ((wrt : Nat) : Int) = .ok d ∧ HasDerivAt (slice g x wrt i j) d (x wrt) := by
  have hev : ∀ i j, ∃ w, (g i j).eval (seedEnv x ((wrt : Nat) : Int)) = .ok w ∧
      HasDerivAt (slice g x wrt i j) (derivOf w) (x wrt) := seed_eval g x hr wrt
  obtain ⟨w, h1, h2⟩ := hev i j
  refine ⟨derivOf w, ?_, h2⟩
  let f : Expr (Fin 4) → Val := fun e => match e.eval (seedEnv x ((wrt : Nat) : Int)) with
    | .ok w => w
    | .error _ => .num 0
  have hall := evalAll_ok (seedEnv x ((wrt : Nat) : Int)) f (metricEntries g) (by
    intro e he
    simp only [metricEntries, List.mem_map] at he
    obtain ⟨k, -, rfl⟩ := he
    obtain ⟨w', h', -⟩ := hev (Fin.ofNat 4 (k / 4)) (Fin.ofNat 4 (k % 4))
    simp only [f, h'])
  have hw : (((wrt : Nat) : Int) = 0 ∨ ((wrt : Nat) : Int) = 1 ∨ ((wrt : Nat) : Int) = 2 ∨ ((wrt : Nat) : Int) = 3) := by
    omega
  unfold diffG
  rw [if_neg (not_not.mpr hw), if_neg (by simp)]
  have hidx : (metricEntries g)[4 * (i : Nat) + (j : Nat)]? = some (g i j) := by
    have hlt : 4 * (i : Nat) + (j : Nat) < 16 := by omega
    simp only [metricEntries, List.getElem?_map, List.getElem?_range hlt, Option.map_some]
    congr 2
    · apply Fin.ext; simp only [Fin.ofNat]; omega
    · apply Fin.ext; simp only [Fin.ofNat]; omega
  have hall' : evalAll (fun i => (⟨x i, if ((i : Nat) : Int) = ((wrt : Nat) : Int) then 1 else 0⟩ : Dual)) (metricEntries g)
      = .ok ((metricEntries g).map f) := hall
  simp only [hall', bind, Except.bind, List.getElem?_map, hidx, Option.map_some, pure, Except.pure]
  simp only [f, h1, j.isLt, if_true]

theorem jacobianLoop_ok (g : MetricFn) (x : Fin 4 → ℝ) (wrt : Int) (d : Nat → Nat → ℝ)
    (hd : ∀ i j, i < 4 → j < 4 → diffG g x [i, j] wrt = .ok (d i j)) :
    ∀ (l : List (Nat × Nat)), (∀ q ∈ l, q.1 < 4 ∧ q.2 < 4) → ∀ J : Nat → Nat → ℝ,
      ∃ J', jacobianLoop g x wrt l J = .ok J' ∧
        ∀ a b, J' a b = if (a, b) ∈ l ∧ a ≤ b then d a b else J a b := by
  intro l
  induction l with
  | nil => intro _ J; exact ⟨J, rfl, by simp⟩
  | cons q l ih =>
    obtain ⟨i, j⟩ := q
    intro hl J
    have hq := hl (i, j) (by simp)
    have hl' : ∀ q ∈ l, q.1 < 4 ∧ q.2 < 4 := fun q hq => hl q (by simp [hq])
    by_cases hij : i ≤ j
    · obtain ⟨J', h1, h2⟩ := ih hl' (fun a b => if a = i ∧ b = j then d i j else J a b)
      refine ⟨J', by simp only [jacobianLoop, hij, if_true, hd i j hq.1 hq.2, bind, Except.bind]; exact h1, ?_⟩
      intro a b
      rw [h2]
      by_cases hab : a = i ∧ b = j
      · obtain ⟨rfl, rfl⟩ := hab; simp [hij]
      · have : ¬ (a, b) = (i, j) := fun h => hab (Prod.mk.inj h)
        simp only [List.mem_cons, this, false_or, hab, if_false]
    · obtain ⟨J', h1, h2⟩ := ih hl' J
      refine ⟨J', by simp only [jacobianLoop, hij, if_false]; exact h1, ?_⟩
      intro a b
      rw [h2]
      by_cases hab : (a, b) = (i, j)
      · obtain ⟨rfl, rfl⟩ := Prod.mk.inj hab; simp [hij]
      · simp only [List.mem_cons, hab, false_or]

/-- **C28** (values).  If every entry of the metric function is regular at `x`, `_jacobian_g` returns a 4×4 matrix whose
entries on and above the diagonal are the partial derivatives of the metric's entries with respect to coordinate `wrt`,
and which is exactly symmetric; for a metric function that is symmetric, every entry is a partial derivative. -/
theorem C28_jacobian (g : MetricFn) (x : Fin 4 → ℝ) (hr : ∀ i j, (g i j).Regular x) (wrt : Fin 4) :
    Returns (jacobianG g x ((wrt : Nat) : Int)) fun J =>
      (∀ i j, J i j = J j i) ∧
      (∀ i j, i ≤ j → HasDerivAt (slice g x wrt i j) (J i j) (x wrt)) ∧
      ((∀ i j (y : Fin 4 → ℝ), (g i j).den y = (g j i).den y) →
        ∀ i j, HasDerivAt (slice g x wrt i j) (J i j) (x wrt)) := by
  choose d hd hdd using diffG_ok g x hr wrt
  let dn : Nat → Nat → ℝ := fun i j => d (Fin.ofNat 4 i) (Fin.ofNat 4 j)
  have hd' : ∀ (i j : Nat), i < 4 → j < 4 → diffG g x [i, j] ((wrt : Nat) : Int) = .ok (dn i j) := by
    intro i j hi hj
    have := hd (Fin.ofNat 4 i) (Fin.ofNat 4 j)
    simp only [Fin.ofNat, Nat.mod_eq_of_lt hi, Nat.mod_eq_of_lt hj] at this
    simpa only [dn, Fin.ofNat, Nat.mod_eq_of_lt hi, Nat.mod_eq_of_lt hj] using this
  have hres : ∃ J, jacobianG g x ((wrt : Nat) : Int) = .ok J ∧ ∀ i j : Fin 4, J i j = if i ≤ j then d i j else d j i := by
    obtain ⟨J, hJ, hv⟩ := jacobianLoop_ok g x _ dn hd' ((List.range 16).map fun k => (k / 4, k % 4)) (by
      intro q hq
      simp only [List.mem_map, List.mem_range] at hq
      obtain ⟨k, hk, rfl⟩ := hq
      exact ⟨by simp only; omega, by simp only; omega⟩) (fun _ _ => 0)
    refine ⟨_, by simp only [jacobianG, hJ, bind, Except.bind, pure, Except.pure]; rfl, ?_⟩
    have hmem : ∀ i j : Fin 4, ((i : Nat), (j : Nat)) ∈ (List.range 16).map fun k => (k / 4, k % 4) := by decide
    have hdn : ∀ i j : Fin 4, dn (i : Nat) (j : Nat) = d i j := by
      intro i j; simp only [dn, Fin.ofNat_eq_cast, Fin.cast_val_eq_self]
    intro i j
    simp only [hv, hmem, true_and, hdn]
    rcases lt_trichotomy i j with h | h | h
    · have h1 : (i : Nat) ≤ j := h.le
      have h2 : ¬ (j : Nat) ≤ i := not_le.mpr h
      simp [h1, h2, h.le, h.ne]
    · subst h; simp
    · have h1 : (j : Nat) ≤ i := h.le
      have h2 : ¬ (i : Nat) ≤ j := not_le.mpr h
      simp [h1, h2, h, h.ne']
  obtain ⟨J, hJ, hval⟩ := hres
  refine ⟨J, hJ, ?_, ?_, ?_⟩
  · intro i j
    rw [hval, hval]
    rcases lt_trichotomy i j with h | h | h
    · rw [if_pos h.le, if_neg (not_le.mpr h)]
    · subst h; rfl
    · rw [if_neg (not_le.mpr h), if_pos h.le]
  · intro i j hij
    rw [hval, if_pos hij]; exact hdd i j
  · intro hs i j
    rw [hval]
    split_ifs with hij
    · exact hdd i j
    · have e : slice g x wrt i j = slice g x wrt j i := by
        funext u; exact hs i j _
      rw [e]; exact hdd j i

/-- **C28** (validation).  A `wrt` outside `0 … 3` raises `ValueError`, and so does an index tuple whose length is not 2. -/
theorem C28_bad_wrt (g : MetricFn) (x : Fin 4 → ℝ) (wrt : Int) :
    (wrt < 0 ∨ 3 < wrt → Raises (jacobianG g x wrt) .valueError ∧
      ∀ idx : List Nat, Raises (diffG g x idx wrt) .valueError) ∧
    (∀ idx : List Nat, idx.length ≠ 2 → Raises (diffG g x idx wrt) .valueError) := by
  have h1 : wrt < 0 ∨ 3 < wrt → ∀ idx : List Nat, diffG g x idx wrt = .error .valueError := by
    intro h idx
    unfold diffG
    rw [if_pos (by omega)]
  refine ⟨fun h => ⟨?_, h1 h⟩, ?_⟩
  · unfold Raises jacobianG
    have hlist : (List.range 16).map (fun k => (k / 4, k % 4)) = (0, 0) :: ((List.range 16).tail.map (fun k => (k / 4, k % 4))) := by
      decide
    rw [hlist]
    simp only [jacobianLoop, Nat.le_refl, if_true, h1 h, bind, Except.bind]
  · intro idx hl
    unfold Raises diffG
    split_ifs <;> rfl

/-- **C28** (indices).  At a point of the domain and for `wrt` in `0 … 3`, an index pair reaching outside the 4×4 metric
raises `IndexError`. -/
theorem C28_bad_index (g : MetricFn) (x : Fin 4 → ℝ) (hr : ∀ i j, (g i j).Regular x) (wrt : Fin 4) (i j : Nat)
    (h : 4 ≤ i ∨ 4 ≤ j) : Raises (diffG g x [i, j] ((wrt : Nat) : Int)) .indexError := by
  let f : Expr (Fin 4) → Val := fun e => match e.eval (seedEnv x ((wrt : Nat) : Int)) with
    | .ok w => w
    | .error _ => .num 0
  have hall := evalAll_ok (seedEnv x ((wrt : Nat) : Int)) f (metricEntries g) (by
    intro e he
    simp only [metricEntries, List.mem_map] at he
    obtain ⟨k, -, rfl⟩ := he
    obtain ⟨w', h', -⟩ := seed_eval g x hr wrt (Fin.ofNat 4 (k / 4)) (Fin.ofNat 4 (k % 4))
    simp only [f, h'])
  have hw : (((wrt : Nat) : Int) = 0 ∨ ((wrt : Nat) : Int) = 1 ∨ ((wrt : Nat) : Int) = 2 ∨ ((wrt : Nat) : Int) = 3) := by
    omega
  unfold Raises diffG
  rw [if_neg (not_not.mpr hw), if_neg (by simp)]
  have hall' : evalAll (fun i => (⟨x i, if ((i : Nat) : Int) = ((wrt : Nat) : Int) then 1 else 0⟩ : Dual)) (metricEntries g)
      = .ok ((metricEntries g).map f) := hall
  have hidx : (if j < 4 then ((metricEntries g).map f)[4 * i + j]? else none) = none := by
    split_ifs with hj
    · apply List.getElem?_eq_none
      simp only [metricEntries, List.length_map, List.length_range]
      omega
    · rfl
  simp only [hall', bind, Except.bind, hidx]
  rfl

/-- A metric function with a non-trivial dependence on the coordinates that meets the hypotheses:
`diag(-(1 - 2/r), 1 - 2/r, 1/r², 1/(r sin θ)²)` at `r = 3`, `θ = 1`. -/
noncomputable def exMetricFn : MetricFn := fun i j =>
  let r : Expr (Fin 4) := .var 1
  let a : Expr (Fin 4) := .sub (.const 1) (.div (.const 2) r)
  if i = j then
    (match i with
      | 0 => .neg a
      | 1 => a
      | 2 => .div (.const 1) (.pow r 2)
      | 3 => .div (.const 1) (.pow (.mul r (.sin (.var 2))) 2))
  else .const 0

example : ∀ i j, (exMetricFn i j).Regular ![0, 3, 1, 0] := by
  have hs : Real.sin 1 ≠ 0 := ne_of_gt (Real.sin_pos_of_pos_of_lt_pi one_pos (by linarith [Real.pi_gt_three]))
  have hs' : 0 < Real.sin 1 := Real.sin_pos_of_pos_of_lt_pi one_pos (by linarith [Real.pi_gt_three])
  intro i j
  fin_cases i <;> fin_cases j <;> simp [exMetricFn, Expr.Regular, Expr.den, hs, hs']

example : ∀ i j (y : Fin 4 → ℝ), (exMetricFn i j).den y = (exMetricFn j i).den y := by
  intro i j y
  fin_cases i <;> fin_cases j <;> simp [exMetricFn, Expr.den]

end Einpy
