import Verif.Tensor.Lemmas2
import Mathlib.LinearAlgebra.Matrix.Determinant.Basic
import Mathlib.Tactic.NormNum
import Mathlib.Tactic.FinCases
import Mathlib.Algebra.Field.Rat
import Mathlib.Data.Fintype.Pi

/-!
# Property theorems C01 – C08, C10, C23

`Tns`, `applySlots`, `slotMatrix`, `Represents`, `WF`, `Returns`, `Raises` are defined in
`Verif/Tensor/Spec.lean`.
-/

namespace Einpy
open Classical

section
variable {R : Type*} [CommRing R] {n : Nat}

/-! ## concrete instances used to show that hypotheses can be met -/

/-- a (non-diagonal, Lorentzian) metric on a 2-dimensional space over ℚ -/
def exMetric : MetricV ℚ where
  arr := NDArr.ofMatrix !![-1, 2; 2, 3]
  config := ['l', 'l']
  syms := ["t", "x"]
  name := some "g"

theorem exMetric_represents : exMetric.Represents (n := 2) !![-1, 2; 2, 3] := by
  refine ⟨rfl, ?_, Or.inl ⟨rfl, toMatrix_ofMatrix _⟩⟩
  rw [Matrix.det_fin_two]; norm_num

/-- a Ricci-type tensor with distinct components and that parent metric -/
def exTensor : Obj ℚ where
  kind := .ricci
  arr := NDArr.ofMatrix !![1, 2; 3, 4]
  config := ['l', 'l']
  order := 2
  syms := ["t", "x"]
  parent := some exMetric
  name := some "T"

theorem exTensor_wf : exTensor.WF 2 :=
  ⟨rfl, rfl, rfl, by intro ch h; simp [exTensor] at h; simp [h], Or.inr rfl⟩

/-! ## C01, C03 -/

/-- Everything `change_config` returns when it succeeds. -/
theorem changeConfig_ok {r : Nat} (t : Obj R) (nc : Config) (metric : Option (MetricV R))
    (m : MetricV R) (g : Matrix (Fin n) (Fin n) R) (k : Kind)
    (hk : t.kind.changeConfigTarget = some k)
    (hm : (metric <|> t.parent) = some m) (hg : m.Represents g) (ht : t.WF n)
    (hr : t.config.length = r) (hlen : nc.length = r) (hv : ValidConfig nc) :
    k.order = some r ∧ k.changeConfigTarget = some k ∧
    ∃ a : NDArr R, t.changeConfig nc metric =
      .ok ⟨k, a, nc, r, t.syms, some m, changeName t.name ("__" ++ String.ofList nc)⟩ ∧
      a.IsCube r n ∧
      a.comp r n = applySlots
        (fun s : Fin r => slotMatrix g (t.config[(s : Nat)]'(by have := s.2; omega))
          (nc[(s : Nat)]'(by have := s.2; omega)))
        (t.arr.comp r n) := by
  subst hr
  have hko : k.order = some t.config.length ∧ k.changeConfigTarget = some k := by
    have := ht.kind
    cases hkk : t.kind <;> rw [hkk] at hk this <;>
      simp only [Kind.changeConfigTarget, Option.some.injEq, reduceCtorEq] at hk <;> subst hk <;>
      simpa [Kind.order, Kind.changeConfigTarget] using this
  obtain ⟨a, h1, h2, h3⟩ := changeConfigArr_ok t.arr t.config nc m g hg hlen hv ht.cube
  refine ⟨hko.1, hko.2, a, ?_, h2, h3⟩
  unfold Obj.changeConfig
  rw [hk, hm]
  show (changeConfigArr t.arr t.config m nc >>= fun a => mkKind k (.arr a) (.seq t.syms) (.str nc)
    (some m) (changeName t.name ("__" ++ String.ofList nc))) = _
  rw [h1]
  show mkKind k (.arr a) (.seq t.syms) (.str nc) (some m) _ = _
  rw [mkKind_cube (n := n) k a nc t.syms (some m) _ hv (by rw [hlen]; exact h2) ht.syms
    (by rw [hlen]; exact hko.1)]
  rw [hlen]

/-- **C01**.  For a tensor of any rank and a covariant or contravariant parent metric describing the
space with covariant metric `g`, the components of `change_config(newconfig)` are
`T'(i) = Σ_j Π_s M_s(i_s, j_s) T(j)`, where `M_s` is the identity for an unchanged slot, `g` for a
lowered slot and `g⁻¹` for a raised slot. -/
theorem C01_change_config_components (t : Obj R) (nc : Config) (metric : Option (MetricV R))
    (m : MetricV R) (g : Matrix (Fin n) (Fin n) R)
    (hk : t.kind.changeConfigTarget ≠ none)
    (hm : (metric <|> t.parent) = some m) (hg : m.Represents g) (ht : t.WF n)
    (hlen : nc.length = t.config.length) (hv : ValidConfig nc) :
    Returns (t.changeConfig nc metric) fun t' =>
      t'.arr.shape = List.replicate t.config.length n ∧
      ∀ i : Fin t.config.length → Fin n,
        t'.arr.get (multiIx i) = ∑ j : Fin t.config.length → Fin n,
          (∏ s : Fin t.config.length, slotMatrix g t.config[(s : Nat)] (nc[(s : Nat)]'(by have := s.2; omega)) (i s) (j s))
            * t.arr.get (multiIx j) := by
  obtain ⟨k, hk⟩ := Option.ne_none_iff_exists'.mp hk
  obtain ⟨-, -, a, h1, h2, h3⟩ := changeConfig_ok t nc metric m g k hk hm hg ht rfl hlen hv
  exact ⟨_, h1, h2, fun i => congrFun h3 i⟩

example : Returns (exTensor.changeConfig ['u', 'l'] none) fun t' =>
      t'.arr.shape = List.replicate 2 2 ∧
      ∀ i : Fin 2 → Fin 2, t'.arr.get (multiIx i) = ∑ j : Fin 2 → Fin 2,
          (∏ s : Fin 2, slotMatrix !![-1, 2; 2, 3] (['l', 'l'][(s : Nat)]) (['u', 'l'][(s : Nat)])
            (i s) (j s)) * exTensor.arr.get (multiIx j) :=
  C01_change_config_components exTensor ['u', 'l'] none exMetric !![-1, 2; 2, 3]
    (by simp [exTensor, Kind.changeConfigTarget]) rfl exMetric_represents exTensor_wf rfl
    (by intro ch h; simp at h; rcases h with rfl | rfl <;> simp)

/-! ## C02 -/

/-- **C02**.  Changing to `b` and then to `c` (with the metric remembered by the result) has the same
components as changing directly to `c`. -/
theorem C02_change_config_compose (t : Obj R) (b c : Config) (metric : Option (MetricV R))
    (m : MetricV R) (g : Matrix (Fin n) (Fin n) R)
    (hk : t.kind.changeConfigTarget ≠ none)
    (hm : (metric <|> t.parent) = some m) (hg : m.Represents g) (ht : t.WF n)
    (hb : b.length = t.config.length) (hvb : ValidConfig b)
    (hc : c.length = t.config.length) (hvc : ValidConfig c) :
    Returns (t.changeConfig b metric) fun t1 =>
      Returns (t1.changeConfig c none) fun t2 =>
        Returns (t.changeConfig c metric) fun t3 =>
          t2.config = t3.config ∧ t2.arr.shape = t3.arr.shape ∧
          ∀ i : Fin t.config.length → Fin n, t2.arr.get (multiIx i) = t3.arr.get (multiIx i) := by
  obtain ⟨k, hk⟩ := Option.ne_none_iff_exists'.mp hk
  obtain ⟨hko, hkk, a1, e1, c1, f1⟩ := changeConfig_ok t b metric m g k hk hm hg ht rfl hb hvb
  obtain ⟨-, -, a3, e3, c3, f3⟩ := changeConfig_ok t c metric m g k hk hm hg ht rfl hc hvc
  refine ⟨_, e1, ?_⟩
  have hwf : Obj.WF (⟨k, a1, b, t.config.length, t.syms, some m,
      changeName t.name ("__" ++ String.ofList b)⟩ : Obj R) n :=
    ⟨by show a1.IsCube b.length n; rw [hb]; exact c1, ht.syms, hb.symm, hvb,
      Or.inr (by show k.order = some b.length; rw [hb, hko])⟩
  obtain ⟨-, -, a2, e2, c2, f2⟩ := changeConfig_ok _ c none m g k hkk rfl hg hwf hb hc hvc
  refine ⟨_, e2, _, e3, rfl, ?_, ?_⟩
  · show a2.shape = a3.shape
    rw [show a2.shape = _ from c2, show a3.shape = _ from c3]
  · intro i
    have key : a2.comp t.config.length n = a3.comp t.config.length n := by
      rw [f2, f3]
      show applySlots _ (a1.comp t.config.length n) = _
      rw [f1, applySlots_comp]
      congr 1
      funext s
      exact slotMatrix_mul g hg.2.1 _ _ _ (ht.valid _ (List.getElem_mem _))
        (hvb _ (List.getElem_mem _)) (hvc _ (List.getElem_mem _))
    exact congrFun key i

/-- **C02** (round trip).  Changing to any configuration and back restores configuration and
components. -/
theorem C02_change_config_round_trip (t : Obj R) (b : Config) (metric : Option (MetricV R))
    (m : MetricV R) (g : Matrix (Fin n) (Fin n) R)
    (hk : t.kind.changeConfigTarget ≠ none)
    (hm : (metric <|> t.parent) = some m) (hg : m.Represents g) (ht : t.WF n)
    (hb : b.length = t.config.length) (hvb : ValidConfig b) :
    Returns (t.changeConfig b metric) fun t1 =>
      Returns (t1.changeConfig t.config none) fun t2 =>
        t2.config = t.config ∧ t2.arr.shape = t.arr.shape ∧
        ∀ i : Fin t.config.length → Fin n, t2.arr.get (multiIx i) = t.arr.get (multiIx i) := by
  obtain ⟨t1, h1, t2, h2, t3, h3, e1, e2, e3⟩ :=
    C02_change_config_compose t b t.config metric m g hk hm hg ht hb hvb rfl ht.valid
  obtain ⟨k, hk⟩ := Option.ne_none_iff_exists'.mp hk
  obtain ⟨-, -, a, h3', c, f⟩ := changeConfig_ok t t.config metric m g k hk hm hg ht rfl rfl ht.valid
  rw [h3] at h3'
  injection h3' with h3'
  subst h3'
  have hid : a.comp t.config.length n = t.arr.comp t.config.length n := by
    rw [f]
    simp only [slotMatrix, if_true]
    exact applySlots_one _
  refine ⟨t1, h1, t2, h2, e1, ?_, fun i => ?_⟩
  · rw [e2]; exact c.trans ht.cube.symm
  · rw [e3]; exact congrFun hid i

example : Returns (exTensor.changeConfig ['u', 'l'] none) fun t1 =>
      Returns (t1.changeConfig ['l', 'l'] none) fun t2 =>
        t2.config = ['l', 'l'] ∧ t2.arr.shape = [2, 2] ∧
        ∀ i : Fin 2 → Fin 2, t2.arr.get (multiIx i) = exTensor.arr.get (multiIx i) :=
  C02_change_config_round_trip exTensor ['u', 'l'] none exMetric !![-1, 2; 2, 3]
    (by simp [exTensor, Kind.changeConfigTarget]) rfl exMetric_represents exTensor_wf rfl
    (by intro ch h; simp at h; rcases h with rfl | rfl <;> simp)

/-! ## C03 -/

/-- **C03** (success).  Labels of the tensor returned by `change_config`. -/
theorem C03_change_config_labels (t : Obj R) (nc : Config) (metric : Option (MetricV R))
    (m : MetricV R) (g : Matrix (Fin n) (Fin n) R)
    (hk : t.kind.changeConfigTarget ≠ none)
    (hm : (metric <|> t.parent) = some m) (hg : m.Represents g) (ht : t.WF n)
    (hlen : nc.length = t.config.length) (hv : ValidConfig nc) :
    Returns (t.changeConfig nc metric) fun t' =>
      t'.config = nc ∧ t'.order = t.order ∧ t'.syms = t.syms ∧ t'.parent = some m ∧
      t'.name = t.name.map (fun s => s ++ ("__" ++ String.ofList nc)) ∧ t'.WF n := by
  obtain ⟨k, hk⟩ := Option.ne_none_iff_exists'.mp hk
  obtain ⟨hko, -, a, h1, h2, h3⟩ := changeConfig_ok t nc metric m g k hk hm hg ht rfl hlen hv
  refine ⟨_, h1, rfl, ht.order.symm, rfl, rfl, ?_, ?_⟩
  · show changeName t.name _ = _
    cases t.name <;> rfl
  · exact ⟨by show a.IsCube nc.length n; rw [hlen]; exact h2, ht.syms, hlen.symm, hv,
      Or.inr (by show k.order = some nc.length; rw [hlen]; exact hko)⟩

/-- **C03** (no metric).  Without a metric argument and without a parent metric, `change_config`
raises `Exception`, whatever configuration is requested. -/
theorem C03_no_metric_raises (t : Obj R) (nc : Config)
    (hk : t.kind.changeConfigTarget ≠ none) (hp : t.parent = none) :
    Raises (t.changeConfig nc none) .exception := by
  obtain ⟨k, hk⟩ := Option.ne_none_iff_exists'.mp hk
  simp [Raises, Obj.changeConfig, hk, hp]

/-- **C03** (bad configuration).  A configuration of the wrong length or with letters other than
`u`, `l` raises `ValueError`. -/
theorem C03_bad_config_raises (t : Obj R) (nc : Config) (metric : Option (MetricV R))
    (m : MetricV R) (hk : t.kind.changeConfigTarget ≠ none)
    (hm : (metric <|> t.parent) = some m)
    (hbad : nc.length ≠ t.config.length ∨ ∃ ch ∈ nc, ch ≠ 'u' ∧ ch ≠ 'l') :
    Raises (t.changeConfig nc metric) .valueError := by
  obtain ⟨k, hk⟩ := Option.ne_none_iff_exists'.mp hk
  unfold Raises Obj.changeConfig
  rw [hk, hm]
  have : changeConfigArr t.arr t.config m nc = .error .valueError := by
    apply changeConfigArr_bad
    rcases hbad with h | ⟨ch, h1, h2, h3⟩
    · exact Or.inl h
    · right; intro hv
      rcases hv ch h1 with h | h <;> contradiction
  show (changeConfigArr t.arr t.config m nc >>= _) = _
  rw [this]; rfl

/-- **C03** (singular metric).  An acceptable configuration with a singular covariant or
contravariant metric raises sympy's `NonInvertibleMatrixError`, even if no index is moved. -/
theorem C03_singular_metric_raises (t : Obj R) (nc : Config) (metric : Option (MetricV R))
    (m : MetricV R) (hk : t.kind.changeConfigTarget ≠ none)
    (hm : (metric <|> t.parent) = some m)
    (hlen : nc.length = t.config.length) (hv : ValidConfig nc)
    (hsh : m.arr.shape = [n, n]) (hc : m.config = ['l', 'l'] ∨ m.config = ['u', 'u'])
    (hsing : ¬ IsUnit (m.arr.toMatrix n).det) :
    Raises (t.changeConfig nc metric) .nonInvertible := by
  obtain ⟨k, hk⟩ := Option.ne_none_iff_exists'.mp hk
  have hinv := NDArr.inv_singular m.arr hsh hsing
  have : changeConfigArr t.arr t.config m nc = .error .nonInvertible := by
    unfold changeConfigArr
    rw [if_neg (by simp [hlen, (configChecker_iff nc).mpr hv])]
    rcases hc with hc | hc
    · have h1 : m.lowerConfig = .ok m := by simp [MetricV.lowerConfig, hc]
      have h2 : m.inv = .error .nonInvertible := by
        simp [MetricV.inv, MetricV.changeConfig, hc, hinv]
      rw [h1]
      show (m.inv >>= _) = _
      rw [h2]; rfl
    · have h1 : m.lowerConfig = .error .nonInvertible := by
        simp [MetricV.lowerConfig, MetricV.inv, MetricV.changeConfig, hc, hinv]
      rw [h1]; rfl
  unfold Raises Obj.changeConfig
  rw [hk, hm]
  show (changeConfigArr t.arr t.config m nc >>= _) = _
  rw [this]; rfl

example : Raises (Obj.changeConfig { exTensor with parent := none } ['u', 'l'] none) .exception :=
  C03_no_metric_raises _ _ (by simp [exTensor, Kind.changeConfigTarget]) rfl

example : Raises (exTensor.changeConfig ['u', 'x'] none) .valueError :=
  C03_bad_config_raises exTensor _ none exMetric (by simp [exTensor, Kind.changeConfigTarget]) rfl
    (Or.inr ⟨'x', by simp, by decide, by decide⟩)

example : Raises (exTensor.changeConfig ['u', 'l']
    (some { exMetric with arr := NDArr.ofMatrix !![1, 2; 2, 4] })) .nonInvertible :=
  C03_singular_metric_raises (n := 2) exTensor _ _ _ (by simp [exTensor, Kind.changeConfigTarget])
    rfl rfl (by intro ch h; simp at h; rcases h with rfl | rfl <;> simp) rfl (Or.inl rfl)
    (by rw [toMatrix_ofMatrix, Matrix.det_fin_two]; norm_num)

/-! ## C23 -/

/-- **C23** (what holds).  Every class with `change_config` except `StressEnergyMomentumTensor`
returns an object of its own class. -/
theorem C23_change_config_class_partial (t t' : Obj R) (nc : Config) (metric : Option (MetricV R))
    (hk : t.kind ≠ .stressEnergy) (h : t.changeConfig nc metric = .ok t') :
    t'.kind = t.kind := by
  unfold Obj.changeConfig at h
  cases hkk : t.kind <;> rw [hkk] at h <;> simp only [Kind.changeConfigTarget, reduceCtorEq] at h <;>
    (try exact absurd hkk hk) <;> (cases hm : (metric <|> t.parent) <;> rw [hm] at h) <;>
    simp only [reduceCtorEq] at h <;>
    (cases ha : changeConfigArr t.arr t.config _ nc with
     | error e => rw [ha] at h; exact absurd h (by intro h; cases h)
     | ok a =>
       rw [ha] at h
       simp only [mkKind, Kind.order, bind, Except.bind] at h
       split at h
       · cases h
       · split at h
         · injection h with h; subst h; rfl
         · cases h)

/-- **C23** (refutation).  `StressEnergyMomentumTensor.change_config` returns an `EinsteinTensor`:
*every* successful call does. -/
theorem C23_change_config_class_refuted (t t' : Obj R) (nc : Config) (metric : Option (MetricV R))
    (hk : t.kind = .stressEnergy) (h : t.changeConfig nc metric = .ok t') :
    t'.kind = .einstein := by
  unfold Obj.changeConfig at h
  rw [hk] at h
  simp only [Kind.changeConfigTarget] at h
  cases hm : (metric <|> t.parent) <;> rw [hm] at h <;> simp only [reduceCtorEq] at h
  cases ha : changeConfigArr t.arr t.config _ nc with
  | error e => rw [ha] at h; exact absurd h (by intro h; cases h)
  | ok a =>
    rw [ha] at h
    simp only [mkKind, Kind.order, bind, Except.bind] at h
    split at h
    · cases h
    · split at h
      · injection h with h; subst h; rfl
      · cases h

/-- the refutation is not vacuous: such a call succeeds -/
example : ∃ t', (Obj.changeConfig { exTensor with kind := .stressEnergy } ['u', 'l'] none)
    = .ok t' ∧ t'.kind = .einstein := by
  have hw : Obj.WF { exTensor with kind := .stressEnergy } 2 :=
    ⟨exTensor_wf.cube, exTensor_wf.syms, exTensor_wf.order, exTensor_wf.valid, Or.inr rfl⟩
  obtain ⟨t', h, -⟩ := C03_change_config_labels (n := 2) { exTensor with kind := .stressEnergy }
    ['u', 'l'] none exMetric _ (by simp [Kind.changeConfigTarget]) rfl exMetric_represents hw rfl
    (by intro ch h; simp at h; rcases h with rfl | rfl <;> simp)
  exact ⟨t', h, C23_change_config_class_refuted _ t' _ _ rfl h⟩

end
end Einpy
