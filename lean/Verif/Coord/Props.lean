import Verif.Coord.Deriv

/-!
# Speeds and the Lorentz factor (C54); dispatch, errors and composed conversions (C74)
-/

namespace Einpy.Coord
open Classical

/-! ## C54 -/

/-- **C54**: the Cartesian speed of a converted spherical velocity is its length in the flat metric
`dr² + r² dθ² + r² sin²θ dφ²`. -/
theorem C54_spherical_speed (t r th ph u v w : ℝ) : ∃ p V,
    Spherical.convertCartesian (Conv.new ⟨t, r, th, ph⟩ (some u) (some v) (some w)) = .ok (p, some V) ∧
    V.a ^ 2 + V.b ^ 2 + V.c ^ 2 = u ^ 2 + r ^ 2 * v ^ 2 + (r * Real.sin th) ^ 2 * w ^ 2 := by
  refine ⟨_, _, conv_cart7 .., ?_⟩
  have q1 := Real.sin_sq_add_cos_sq th
  have q2 := Real.sin_sq_add_cos_sq ph
  simp only
  generalize Real.cos ph = C at *
  generalize Real.sin ph = S at *
  generalize Real.cos th = c at *
  generalize Real.sin th = s at *
  linear_combination (s ^ 2 * u ^ 2 + r ^ 2 * s ^ 2 * w ^ 2 + r ^ 2 * c ^ 2 * v ^ 2 + 2 * s * c * r * u * v) * q2 +
    (u ^ 2 + r ^ 2 * v ^ 2) * q1

/-- **C54**: … and the spherical velocity returned for a Cartesian one has the same length. -/
theorem C54_cartesian_speed (t x y z u v w : ℝ) (h : x ≠ 0 ∨ y ≠ 0) : ∃ p V,
    Cartesian.convertSpherical (Conv.new ⟨t, x, y, z⟩ (some u) (some v) (some w)) = .ok (p, some V) ∧
    V.a ^ 2 + p.a ^ 2 * V.b ^ 2 + (p.a * Real.sin p.b) ^ 2 * V.c ^ 2 = u ^ 2 + v ^ 2 + w ^ 2 := by
  obtain ⟨o, h1, h2⟩ := C51_cartesian_round_trip_velocity t x y z u v w h
  have h1' : 0 < x ^ 2 + y ^ 2 := by rcases h with h | h <;> positivity
  have h3 := h1
  rw [conv_sph7, cartToSph_ok _ _ _ _ _ _ _ h1'.ne'] at h3
  obtain ⟨p, V⟩ : ∃ p V, o = (p, some V) := ⟨_, _, (Except.ok.inj h3).symm⟩
  obtain ⟨V, rfl⟩ := V
  refine ⟨p, V, h1, ?_⟩
  obtain ⟨t', r, th, ph⟩ := p
  obtain ⟨a, b, c⟩ := V
  obtain ⟨p', V', h4, h5⟩ := C54_spherical_speed t' r th ph a b c
  have h6 : Conv.ofTuple (⟨t', r, th, ph⟩, some ⟨a, b, c⟩) = Conv.new ⟨t', r, th, ph⟩ (some a) (some b) (some c) := rfl
  rw [h6, h4] at h2
  have : V' = ⟨u, v, w⟩ := Option.some.inj (congrArg Prod.snd (Except.ok.inj h2))
  rw [this] at h5
  exact h5.symm

/-- **C54**: the Cartesian speed of a converted Boyer-Lindquist velocity is its length in the flat metric in spheroidal
coordinates, `Σ/(r²+α²) dr² + Σ dθ² + (r²+α²) sin²θ dφ²` with `Σ = r² + α² cos²θ`. -/
theorem C54_bl_speed (k : Num.PhysConst) (t r th ph u v w M a : ℝ) (ha : 0 ≤ a ∧ a ≤ 1) (hr : r ≠ 0) :
    let al := a * (k.G * M / k.c ^ 2)
    ∃ p V, BoyerLindquist.convertCartesian k (Conv.new ⟨t, r, th, ph⟩ (some u) (some v) (some w)) ⟨some M, some a⟩ =
      .ok (p, some V) ∧
    V.a ^ 2 + V.b ^ 2 + V.c ^ 2 = (r ^ 2 + (al * Real.cos th) ^ 2) / (r ^ 2 + al ^ 2) * u ^ 2 +
      (r ^ 2 + (al * Real.cos th) ^ 2) * v ^ 2 + (r ^ 2 + al ^ 2) * Real.sin th ^ 2 * w ^ 2 := by
  intro al
  have hal : Num.alpha k M a = .ok al := alpha_ok k (M := M) ha
  clear_value al
  have h2 : 0 < r ^ 2 + al ^ 2 := by positivity
  refine ⟨_, _, by rw [conv_blcart7 k hal, blToCart_ok h2]; rfl, ?_⟩
  have q1 := Real.sin_sq_add_cos_sq th
  have q2 := Real.sin_sq_add_cos_sq ph
  have hA : 0 < Real.sqrt (r ^ 2 + al ^ 2) := Real.sqrt_pos.mpr h2
  have q3 : Real.sqrt (r ^ 2 + al ^ 2) ^ 2 = r ^ 2 + al ^ 2 := Real.sq_sqrt h2.le
  simp only
  generalize Real.cos ph = C at *
  generalize Real.sin ph = S at *
  generalize Real.cos th = c at *
  generalize Real.sin th = s at *
  generalize Real.sqrt (r ^ 2 + al ^ 2) = A at *
  rw [← q3]
  have hal2 : al ^ 2 = A ^ 2 - r ^ 2 := by linarith
  rw [mul_pow, hal2]
  have e : (r * u * s * C / A + A * c * C * v - A * s * S * w) ^ 2 + (r * u * s * S / A + A * c * S * v + A * s * C * w) ^ 2
      = (r * u * s / A + A * c * v) ^ 2 + (A * s * w) ^ 2 := by
    field_simp
    linear_combination (r ^ 2 * u ^ 2 * s ^ 2 + 2 * r * u * s * A ^ 2 * c * v + A ^ 4 * c ^ 2 * v ^ 2 +
      A ^ 4 * s ^ 2 * w ^ 2) * q2
  rw [e]
  field_simp
  linear_combination (r ^ 2 * u ^ 2 + r ^ 2 * A ^ 2 * v ^ 2) * q1

/-- **C54**: `lorentz_factor` is defined exactly for speeds below `c`. -/
theorem C54_lorentz_domain (k : Num.PhysConst) (v1 v2 v3 : ℝ) :
    ((∃ g, lorentzFactor k v1 v2 v3 = .ok g) ↔ v1 ^ 2 + v2 ^ 2 + v3 ^ 2 < k.c ^ 2) ∧
    (∀ e, lorentzFactor k v1 v2 v3 = .error e → e = .notANumber) := by
  have hc := k.c_pos
  unfold lorentzFactor
  simp only [bind, Except.bind]
  have e : v1 * v1 + v2 * v2 + v3 * v3 = v1 ^ 2 + v2 ^ 2 + v3 ^ 2 := by ring
  rw [e]
  generalize v1 ^ 2 + v2 ^ 2 + v3 ^ 2 = n
  rcases lt_trichotomy n (k.c ^ 2) with h | h | h
  · have h1 : 0 < 1 - n / k.c ^ 2 := by rw [sub_pos, div_lt_one (by positivity)]; exact h
    rw [npSqrt_ok h1.le]
    simp only
    rw [npDiv_ok _ (Real.sqrt_pos.mpr h1).ne']
    exact ⟨⟨fun _ => h, fun _ => ⟨_, rfl⟩⟩, fun e he => by cases he⟩
  · have h1 : 1 - n / k.c ^ 2 = 0 := by rw [h, div_self (by positivity), sub_self]
    rw [h1, npSqrt_ok le_rfl]
    simp only
    rw [Real.sqrt_zero, npDiv_zero]
    exact ⟨⟨fun ⟨g, hg⟩ => (by cases hg), fun h' => absurd h h'.ne⟩, fun e he => (Except.error.inj he).symm⟩
  · have h1 : 1 - n / k.c ^ 2 < 0 := by rw [sub_neg, lt_div_iff₀ (by positivity), one_mul]; exact h
    have h2 : Num.npSqrt (1 - n / k.c ^ 2) = .error .notANumber := if_pos h1
    rw [h2]
    exact ⟨⟨fun ⟨g, hg⟩ => (by cases hg), fun h' => absurd h h'.asymm⟩, fun e he => (Except.error.inj he).symm⟩

/-- **C54**: its value is the `γ > 0` with `γ² (1 - v²/c²) = 1`. -/
theorem C54_lorentz_value (k : Num.PhysConst) (v1 v2 v3 g : ℝ) (h : lorentzFactor k v1 v2 v3 = .ok g) :
    0 < g ∧ g ^ 2 * (1 - (v1 ^ 2 + v2 ^ 2 + v3 ^ 2) / k.c ^ 2) = 1 := by
  have hc := k.c_pos
  have hlt := (C54_lorentz_domain k v1 v2 v3).1.mp ⟨g, h⟩
  unfold lorentzFactor at h
  simp only [bind, Except.bind] at h
  rw [show v1 * v1 + v2 * v2 + v3 * v3 = v1 ^ 2 + v2 ^ 2 + v3 ^ 2 by ring] at h
  generalize v1 ^ 2 + v2 ^ 2 + v3 ^ 2 = n at *
  have h1 : 0 < 1 - n / k.c ^ 2 := by rw [sub_pos, div_lt_one (by positivity)]; exact hlt
  rw [npSqrt_ok h1.le] at h
  simp only at h
  rw [npDiv_ok _ (Real.sqrt_pos.mpr h1).ne'] at h
  rw [← Except.ok.inj h]
  have hp := Real.sqrt_pos.mpr h1
  refine ⟨by positivity, ?_⟩
  rw [div_pow, Real.sq_sqrt h1.le, one_pow, one_div, inv_mul_cancel₀ h1.ne']

/-- **C54**: it is at least 1, equals 1 exactly at rest, depends on the speed only and grows with it. -/
theorem C54_lorentz_monotone (k : Num.PhysConst) {v1 v2 v3 w1 w2 w3 g g' : ℝ} (h : lorentzFactor k v1 v2 v3 = .ok g)
    (h' : lorentzFactor k w1 w2 w3 = .ok g') :
    1 ≤ g ∧ (g = 1 ↔ v1 = 0 ∧ v2 = 0 ∧ v3 = 0) ∧
    (g < g' ↔ v1 ^ 2 + v2 ^ 2 + v3 ^ 2 < w1 ^ 2 + w2 ^ 2 + w3 ^ 2) ∧
    (g = g' ↔ v1 ^ 2 + v2 ^ 2 + v3 ^ 2 = w1 ^ 2 + w2 ^ 2 + w3 ^ 2) := by
  have hc := k.c_pos
  obtain ⟨p1, e1⟩ := C54_lorentz_value k _ _ _ _ h
  obtain ⟨p2, e2⟩ := C54_lorentz_value k _ _ _ _ h'
  have hn : v1 ^ 2 + v2 ^ 2 + v3 ^ 2 = 0 ↔ v1 = 0 ∧ v2 = 0 ∧ v3 = 0 := by
    constructor
    · intro h0
      refine ⟨?_, ?_, ?_⟩ <;> nlinarith [sq_nonneg v1, sq_nonneg v2, sq_nonneg v3]
    · rintro ⟨rfl, rfl, rfl⟩; norm_num
  have hn0 : 0 ≤ v1 ^ 2 + v2 ^ 2 + v3 ^ 2 := by positivity
  rw [← hn]
  generalize v1 ^ 2 + v2 ^ 2 + v3 ^ 2 = n at *
  generalize w1 ^ 2 + w2 ^ 2 + w3 ^ 2 = m at *
  have f1 : n = k.c ^ 2 * (1 - 1 / g ^ 2) := by
    field_simp at e1 ⊢; linear_combination -e1
  have f2 : m = k.c ^ 2 * (1 - 1 / g' ^ 2) := by
    field_simp at e2 ⊢; linear_combination -e2
  have hlt : g < g' ↔ n < m := by
    rw [f1, f2, mul_lt_mul_iff_right₀ (by positivity), sub_lt_sub_iff_left, one_div_lt_one_div (by positivity) (by positivity)]
    exact (pow_lt_pow_iff_left₀ p1.le p2.le two_ne_zero).symm
  have heq : g = g' ↔ n = m := by
    constructor
    · rintro rfl; rw [f1, f2]
    · intro hnm
      have : 1 / g ^ 2 = 1 / g' ^ 2 := by
        have := mul_left_cancel₀ (by positivity) (f1.symm.trans (hnm.trans f2)); linarith
      have : g ^ 2 = g' ^ 2 := by field_simp at this; exact this.symm
      exact (pow_left_inj₀ p1.le p2.le two_ne_zero).mp this
  have hge : 1 ≤ g := by
    have : 1 ≤ g ^ 2 := by
      by_contra hlt'
      push Not at hlt'
      have : 1 < 1 / g ^ 2 := by rw [lt_div_iff₀ (by positivity)]; linarith
      nlinarith [sq_nonneg k.c, mul_pos hc hc]
    nlinarith
  refine ⟨hge, ?_, hlt, heq⟩
  constructor
  · rintro rfl; rw [f1]; norm_num
  · intro h0
    have h1 : 1 - 1 / g ^ 2 = 0 := by
      rcases mul_eq_zero.mp (f1.symm.trans h0) with h' | h'
      · exact absurd h' (pow_pos hc 2).ne'
      · exact h'
    have : g ^ 2 = 1 := by field_simp at h1; linarith
    nlinarith

/-- The hypotheses are met: at rest the factor is 1. -/
example (k : Num.PhysConst) : ∃ g, lorentzFactor k 0 0 0 = .ok g :=
  (C54_lorentz_domain k 0 0 0).1.mpr (by have := k.c_pos; nlinarith)
example (k : Num.PhysConst) : ∃ g, lorentzFactor k (k.c / 2) 0 0 = .ok g :=
  (C54_lorentz_domain k (k.c / 2) 0 0).1.mpr (by have := k.c_pos; nlinarith)

/-! ## C74 -/

theorem needVel_some {v1 v2 v3 : Option ℝ} {V : Vel} (h : needVel v1 v2 v3 = .ok V) :
    v1 = some V.a ∧ v2 = some V.b ∧ v3 = some V.c := by
  match v1, v2, v3, h with
  | some a, some b, some c, h => rw [← Except.ok.inj h]; exact ⟨rfl, rfl, rfl⟩

theorem prov_cases (v1 v2 v3 : Option ℝ) :
    (∃ a b c, v1 = some a ∧ v2 = some b ∧ v3 = some c ∧ ∀ p, (Conv.new p v1 v2 v3).velocitiesProvided = true) ∨
    ((v1 = none ∨ v2 = none ∨ v3 = none) ∧ ∀ p, (Conv.new p v1 v2 v3).velocitiesProvided = false) := by
  match v1, v2, v3 with
  | some a, some b, some c => exact Or.inl ⟨a, b, c, rfl, rfl, rfl, fun _ => rfl⟩
  | none, _, _ => exact Or.inr ⟨Or.inl rfl, fun _ => rfl⟩
  | some _, none, _ => exact Or.inr ⟨Or.inr (Or.inl rfl), fun _ => rfl⟩
  | some _, some _, none => exact Or.inr ⟨Or.inr (Or.inr rfl), fun _ => rfl⟩

/-- **C74**: `values()` gives back the numbers of the constructor call: the 7-tuple when all three velocities were given,
and the position 4-tuple otherwise. -/
theorem C74_values (p : Pos) (v1 v2 v3 : Option ℝ) :
    (∀ a b c, v1 = some a → v2 = some b → v3 = some c → (Conv.new p v1 v2 v3).values = .ok (p, some ⟨a, b, c⟩)) ∧
    (v1 = none ∨ v2 = none ∨ v3 = none → (Conv.new p v1 v2 v3).values = .ok (p, none)) := by
  constructor
  · rintro a b c rfl rfl rfl; rfl
  · rintro (rfl | rfl | rfl)
    · rfl
    · cases v1 <;> rfl
    · cases v1 <;> cases v2 <;> rfl

/-- `convert` has the shape of every conversion method: with a partial velocity it behaves as without any, and its results
are 7-tuples exactly when all three velocities were given; the time component is preserved. -/
def WellDispatched (convert : Conv → Py Out) : Prop :=
  ∀ (p : Pos) (v1 v2 v3 : Option ℝ),
    (v1 = none ∨ v2 = none ∨ v3 = none → convert (Conv.new p v1 v2 v3) = convert (Conv.new p none none none)) ∧
    ∀ o, convert (Conv.new p v1 v2 v3) = .ok o → o.1.t = p.t ∧ (o.2.isSome ↔ v1.isSome ∧ v2.isSome ∧ v3.isSome)

/-- A conversion built from a position function and a velocity function. -/
theorem wellDispatched_of {convert : Conv → Py Out} {f : Pos → Py Pos} {g : Pos → Vel → Py (Pos × Vel)}
    (h : ∀ p v1 v2 v3 b, convert ⟨p, v1, v2, v3, b⟩ =
      if b then (do let v ← needVel v1 v2 v3; let r ← g p v; pure (seven r)) else (do let r ← f p; pure (four r)))
    (ht : ∀ p r, f p = .ok r → r.t = p.t) (ht' : ∀ p v r, g p v = .ok r → r.1.t = p.t) : WellDispatched convert := by
  intro p v1 v2 v3
  rcases prov_cases v1 v2 v3 with ⟨a, b, c, rfl, rfl, rfl, hb⟩ | ⟨hn, hb⟩
  · refine ⟨fun h' => by simp at h', fun o ho => ?_⟩
    have h2 := h p (some a) (some b) (some c) true
    have : convert (Conv.new p (some a) (some b) (some c)) = _ := h2
    rw [this] at ho
    simp only [needVel, if_true, bind, Except.bind, pure, Except.pure] at ho
    cases hg : g p ⟨a, b, c⟩ with
    | error e => rw [hg] at ho; cases ho
    | ok r =>
      rw [hg] at ho
      rw [← Except.ok.inj ho]
      exact ⟨ht' _ _ _ hg, by simp [seven]⟩
  · have h2 : convert (Conv.new p v1 v2 v3) = (do let r ← f p; pure (four r)) := by
      have h3 : Conv.new p v1 v2 v3 = ⟨p, v1, v2, v3, false⟩ := by
        have := hb p
        unfold Conv.new at this ⊢
        simp only at this
        rw [this]
      rw [h3, h]; rfl
    have h4 : convert (Conv.new p none none none) = (do let r ← f p; pure (four r)) := h p none none none false
    refine ⟨fun _ => h2.trans h4.symm, fun o ho => ?_⟩
    rw [h2] at ho
    simp only [bind, Except.bind, pure, Except.pure] at ho
    cases hf : f p with
    | error e => rw [hf] at ho; cases ho
    | ok r =>
      rw [hf] at ho
      rw [← Except.ok.inj ho]
      refine ⟨ht _ _ hf, ?_⟩
      rcases hn with rfl | rfl | rfl <;> simp [four]

theorem WellDispatched.const (e : PyErr) : WellDispatched (fun _ => .error e) :=
  fun _ _ _ _ => ⟨fun _ => rfl, fun _ h => by cases h⟩

theorem WellDispatched.comp {f g : Conv → Py Out} (hf : WellDispatched f) (hg : WellDispatched g) :
    WellDispatched (fun s => do let o ← f s; g (Conv.ofTuple o)) := by
  intro p v1 v2 v3
  obtain ⟨h1, h2⟩ := hf p v1 v2 v3
  refine ⟨fun h => ?_, fun o ho => ?_⟩
  · simp only; rw [h1 h]
  · simp only [bind, Except.bind] at ho
    cases h3 : f (Conv.new p v1 v2 v3) with
    | error e => rw [h3] at ho; cases ho
    | ok o' =>
      rw [h3] at ho
      obtain ⟨h4, h5⟩ := h2 _ h3
      obtain ⟨q, V⟩ := o'
      cases V with
      | none =>
        obtain ⟨h6, h7⟩ := (hg q none none none).2 o ho
        exact ⟨h6.trans h4, by rw [h7, ← h5]; simp⟩
      | some V =>
        obtain ⟨h6, h7⟩ := (hg q (some V.a) (some V.b) (some V.c)).2 o ho
        exact ⟨h6.trans h4, by rw [h7, ← h5]; simp⟩

theorem cartSph_dispatched : WellDispatched Cartesian.convertSpherical := by
  refine wellDispatched_of (f := cartToSphNovel) (g := cartToSph) (fun p v1 v2 v3 b => ?_) (fun p r h => ?_)
    (fun p v r h => ?_)
  · cases b <;> rfl
  · rw [← Except.ok.inj h]
  · unfold cartToSph at h
    simp only [bind, Except.bind, pure, Except.pure] at h
    repeat' split at h
    all_goals first
      | cases h; done
      | (rw [← Except.ok.inj h])

theorem sphCart_dispatched : WellDispatched Spherical.convertCartesian := by
  refine wellDispatched_of (f := sphToCartNovel) (g := sphToCart) (fun p v1 v2 v3 b => ?_) (fun p r h => ?_)
    (fun p v r h => ?_)
  · cases b <;> rfl
  · rw [← Except.ok.inj h]
  · rw [← Except.ok.inj h]

theorem cartBl_dispatched (k : Num.PhysConst) (kw : Kwargs) : WellDispatched (fun s => Cartesian.convertBl k s kw) := by
  unfold Cartesian.convertBl
  cases hk : kw.get with
  | error e => exact .const e
  | ok Ma =>
    obtain ⟨M, a⟩ := Ma
    simp only [bind, Except.bind]
    cases ha : Num.alpha k M a with
    | error e => exact .const e
    | ok al =>
      refine wellDispatched_of (f := fun p => cartToBlNovel p al) (g := fun p v => cartToBl p al v)
        (fun p v1 v2 v3 b => ?_) (fun p r h => ?_) (fun p v r h => ?_)
      · cases b <;> rfl
      · unfold cartToBlNovel at h
        simp only [bind, Except.bind, pure, Except.pure] at h
        repeat' split at h
        all_goals first
          | cases h; done
          | (rw [← Except.ok.inj h])
      · unfold cartToBl at h
        simp only [bind, Except.bind, pure, Except.pure] at h
        repeat' split at h
        all_goals first
          | cases h; done
          | (rw [← Except.ok.inj h])

theorem blCart_dispatched (k : Num.PhysConst) (kw : Kwargs) :
    WellDispatched (fun s => BoyerLindquist.convertCartesian k s kw) := by
  unfold BoyerLindquist.convertCartesian
  cases hk : kw.get with
  | error e => exact .const e
  | ok Ma =>
    obtain ⟨M, a⟩ := Ma
    simp only [bind, Except.bind]
    cases ha : Num.alpha k M a with
    | error e => exact .const e
    | ok al =>
      refine wellDispatched_of (f := fun p => blToCartNovel p al) (g := fun p v => blToCart p al v)
        (fun p v1 v2 v3 b => ?_) (fun p r h => ?_) (fun p v r h => ?_)
      · cases b <;> rfl
      · unfold blToCartNovel at h
        simp only [bind, Except.bind, pure, Except.pure] at h
        repeat' split at h
        all_goals first
          | cases h; done
          | (rw [← Except.ok.inj h])
      · unfold blToCart at h
        simp only [bind, Except.bind, pure, Except.pure] at h
        repeat' split at h
        all_goals first
          | cases h; done
          | (rw [← Except.ok.inj h])

/-- **C74**: every conversion method, for all keyword arguments: a velocity that is only partially given is ignored, the
result is a 7-tuple exactly when all three velocities were given, and the time is preserved. -/
theorem C74_dispatch (k : Num.PhysConst) (kw : Kwargs) :
    WellDispatched Cartesian.convertSpherical ∧ WellDispatched Spherical.convertCartesian ∧
    WellDispatched (fun s => Cartesian.convertBl k s kw) ∧ WellDispatched (fun s => Spherical.convertBl k s kw) ∧
    WellDispatched (fun s => BoyerLindquist.convertCartesian k s kw) ∧
    WellDispatched (fun s => BoyerLindquist.convertSpherical k s kw) := by
  refine ⟨cartSph_dispatched, sphCart_dispatched, cartBl_dispatched k kw, ?_, blCart_dispatched k kw, ?_⟩
  · unfold Spherical.convertBl
    cases hk : kw.get with
    | error e => exact .const e
    | ok Ma => exact sphCart_dispatched.comp (cartBl_dispatched k ⟨some Ma.1, some Ma.2⟩)
  · unfold BoyerLindquist.convertSpherical
    cases hk : kw.get with
    | error e => exact .const e
    | ok Ma => exact (blCart_dispatched k ⟨some Ma.1, some Ma.2⟩).comp cartSph_dispatched

/-- **C74**: without both keyword arguments every conversion to or from Boyer-Lindquist coordinates raises `KeyError`. -/
theorem C74_key_error (k : Num.PhysConst) (s : Conv) (kw : Kwargs) (h : kw.M = none ∨ kw.a = none) :
    Cartesian.convertBl k s kw = .error .keyError ∧ Spherical.convertBl k s kw = .error .keyError ∧
    BoyerLindquist.convertCartesian k s kw = .error .keyError ∧
    BoyerLindquist.convertSpherical k s kw = .error .keyError := by
  have hk : kw.get = .error .keyError := by
    unfold Kwargs.get
    rcases h with h | h
    · rw [h]
    · rw [h]; cases kw.M <;> rfl
  unfold Cartesian.convertBl Spherical.convertBl BoyerLindquist.convertCartesian BoyerLindquist.convertSpherical
  rw [hk]
  exact ⟨rfl, rfl, rfl, rfl⟩

/-- **C74**: a spin parameter outside [0, 1] raises `ValueError`, for every object that can be constructed. -/
theorem C74_value_error (k : Num.PhysConst) (p : Pos) (v1 v2 v3 : Option ℝ) (M a : ℝ) (h : a < 0 ∨ 1 < a) :
    Cartesian.convertBl k (Conv.new p v1 v2 v3) ⟨some M, some a⟩ = .error .valueError ∧
    Spherical.convertBl k (Conv.new p v1 v2 v3) ⟨some M, some a⟩ = .error .valueError ∧
    BoyerLindquist.convertCartesian k (Conv.new p v1 v2 v3) ⟨some M, some a⟩ = .error .valueError ∧
    BoyerLindquist.convertSpherical k (Conv.new p v1 v2 v3) ⟨some M, some a⟩ = .error .valueError := by
  have ha : Num.alpha k M a = .error .valueError := if_pos h
  have h1 : ∀ s : Conv, Cartesian.convertBl k s ⟨some M, some a⟩ = .error .valueError := fun s => by
    unfold Cartesian.convertBl Kwargs.get
    simp only [bind, Except.bind, ha]
  have h2 : ∀ s : Conv, BoyerLindquist.convertCartesian k s ⟨some M, some a⟩ = .error .valueError := fun s => by
    unfold BoyerLindquist.convertCartesian Kwargs.get
    simp only [bind, Except.bind, ha]
  refine ⟨h1 _, ?_, h2 _, ?_⟩
  · have h3 : ∃ o, Spherical.convertCartesian (Conv.new p v1 v2 v3) = .ok o := by
      rcases prov_cases v1 v2 v3 with ⟨a, b, c, rfl, rfl, rfl, -⟩ | ⟨hn, hb⟩
      · exact ⟨_, rfl⟩
      · rw [(sphCart_dispatched p v1 v2 v3).1 hn]; exact ⟨_, rfl⟩
    obtain ⟨o, ho⟩ := h3
    unfold Spherical.convertBl Kwargs.get
    simp only [bind, Except.bind, ho]
    exact h1 _
  · unfold BoyerLindquist.convertSpherical Kwargs.get
    simp only [bind, Except.bind, h2]

/-- **C74**: spherical → Boyer-Lindquist → spherical is the identity for every mass and spin wherever the
Boyer-Lindquist radius of the point is nonzero. -/
theorem C74_spherical_bl_round_trip (k : Num.PhysConst) (t r th ph M a : ℝ) (ha : 0 ≤ a ∧ a ≤ 1) (hr : 0 < r)
    (h0 : 0 < th) (h1 : th < Real.pi) (hp : -Real.pi < ph ∧ ph ≤ Real.pi)
    (hreg : th ≠ Real.pi / 2 ∨ |a * (k.G * M / k.c ^ 2)| < r) :
    ∃ o, Spherical.convertBl k (Conv.new ⟨t, r, th, ph⟩ none none none) ⟨some M, some a⟩ = .ok o ∧
      BoyerLindquist.convertSpherical k (Conv.ofTuple o) ⟨some M, some a⟩ = .ok (⟨t, r, th, ph⟩, none) := by
  obtain ⟨c, hc1, hc2⟩ := C51_spherical_round_trip t r th ph hr h0 h1 hp
  have hc3 := hc1
  rw [conv_cart4] at hc3
  have hc4 := (Except.ok.inj hc3).symm
  have hreg' : r * Real.cos th ≠ 0 ∨ (a * (k.G * M / k.c ^ 2)) ^ 2 < (r * Real.cos ph * Real.sin th) ^ 2 +
      (r * Real.sin ph * Real.sin th) ^ 2 := by
    by_cases hcos : Real.cos th = 0
    · right
      have hs : Real.sin th ^ 2 = 1 := by have := Real.sin_sq_add_cos_sq th; rw [hcos] at this; linarith
      have e : (r * Real.cos ph * Real.sin th) ^ 2 + (r * Real.sin ph * Real.sin th) ^ 2 = r ^ 2 := by
        linear_combination r ^ 2 * Real.sin th ^ 2 * Real.sin_sq_add_cos_sq ph + r ^ 2 * hs
      rw [e, ← sq_abs]
      rcases hreg with h | h
      · exfalso
        refine h (Real.injOn_cos ⟨h0.le, h1.le⟩ ⟨by linarith [Real.pi_pos], by linarith [Real.pi_pos]⟩ ?_)
        rw [hcos, Real.cos_pi_div_two]
      · have := abs_nonneg (a * (k.G * M / k.c ^ 2))
        nlinarith
    · left; exact mul_ne_zero hr.ne' hcos
  obtain ⟨o, ho1, ho2⟩ := C52_cartesian_round_trip k t (r * Real.cos ph * Real.sin th) (r * Real.sin ph * Real.sin th)
    (r * Real.cos th) M a ha hreg'
  refine ⟨o, ?_, ?_⟩
  · unfold Spherical.convertBl Kwargs.get
    simp only [bind, Except.bind, hc1]
    rw [hc4]
    exact ho1
  · unfold BoyerLindquist.convertSpherical Kwargs.get
    simp only [bind, Except.bind, ho2]
    rw [hc4] at hc2
    exact hc2

/-- **C74**: with zero spin the Boyer-Lindquist conversion of a position is the spherical conversion, off the origin. -/
theorem C74_zero_spin (k : Num.PhysConst) (t x y z M : ℝ) (h : x ≠ 0 ∨ y ≠ 0 ∨ z ≠ 0) :
    Cartesian.convertBl k (Conv.new ⟨t, x, y, z⟩ none none none) ⟨some M, some 0⟩ =
      Cartesian.convertSpherical (Conv.new ⟨t, x, y, z⟩ none none none) := by
  have hal : Num.alpha k M 0 = .ok 0 := by rw [alpha_ok k (by norm_num), zero_mul]
  have hreg : z ≠ 0 ∨ (0 : ℝ) ^ 2 < x ^ 2 + y ^ 2 := by
    rcases h with h | h | h
    · right; rw [zero_pow two_ne_zero]; positivity
    · right; rw [zero_pow two_ne_zero]; positivity
    · exact Or.inl h
  rw [conv_bl4 k hal, cartToBlNovel_ok hreg, conv_sph4]
  have hn : 0 < x ^ 2 + y ^ 2 + z ^ 2 := by rcases h with h | h | h <;> positivity
  have hR : blR 0 x y z = npHypot (npHypot x y) z := by
    have e : blD 0 x y z = x ^ 2 + y ^ 2 + z ^ 2 := by
      unfold blD
      rw [show (x ^ 2 + y ^ 2 + z ^ 2 - 0 ^ 2) ^ 2 + 4 * 0 ^ 2 * z ^ 2 = (x ^ 2 + y ^ 2 + z ^ 2) ^ 2 by ring,
        Real.sqrt_sq hn.le]
    unfold blR
    rw [e, npHypot, hypot_sq]
    congr 1
    ring
  have hpos : 0 < npHypot (npHypot x y) z := by rw [← hR]; exact blR_pos hreg
  have hth : Real.arccos (z / npHypot (npHypot x y) z) = npArctan2 (npHypot x y) z := by
    have e : z / npHypot (npHypot x y) z = Real.cos (npArctan2 (npHypot x y) z) := by
      rw [div_eq_iff hpos.ne', mul_comm, hypot_comm, hypot_cos]
    rw [e]
    exact Real.arccos_cos (arctan2_nonneg (hypot_nonneg _ _) _) (arctan2_mem _ _).2
  rw [hR, hth]
  rfl

/-- The hypotheses are met by an equatorial point far out. -/
example (k : Num.PhysConst) : ∃ o,
    Spherical.convertBl k (Conv.new ⟨0, k.G * 3 / k.c ^ 2 + 1, Real.pi / 2, 1⟩ none none none) ⟨some 3, some 1⟩ = .ok o ∧
      BoyerLindquist.convertSpherical k (Conv.ofTuple o) ⟨some 3, some 1⟩ =
        .ok (⟨0, k.G * 3 / k.c ^ 2 + 1, Real.pi / 2, 1⟩, none) := by
  have hG := k.G_pos
  have hc := k.c_pos
  have hp := Real.pi_pos
  have h2 := Real.two_le_pi
  refine C74_spherical_bl_round_trip k _ _ _ _ 3 1 (by norm_num) (by positivity) (by linarith) (by linarith)
    ⟨by linarith, by linarith⟩ (Or.inr ?_)
  rw [abs_of_pos (by positivity)]
  linarith

end Einpy.Coord
