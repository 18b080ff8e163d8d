import Verif.Tensor.Props2

/-!
# Property theorems C07, C08, C10
-/

namespace Einpy
open Classical

section
variable {R : Type*}

/-! ## C07 constructors -/

/-- What a constructor of class `k` must check for a sympy array `a`, a symbol list `syms` and a
configuration string `c`. -/
structure CtorOK (k : Kind) (a : NDArr R) (syms : List String) (c : Config) : Prop where
  letters : ValidConfig c
  rank : a.shape.length = c.length
  lead : k ≠ .tensor → ∀ d ∈ a.shape.head?, d = syms.length
  order : ∀ o ∈ k.order, c.length = o

theorem mkTensor_ok_iff (a : NDArr R) (c : Config) (name : Option String) (t : Obj R) :
    mkTensor (.arr a) (.str c) name = .ok t ↔
      ValidConfig c ∧ a.shape.length = c.length ∧
        t = ⟨.tensor, a, c, c.length, [], none, name⟩ := by
  unfold mkTensor
  rw [← configChecker_iff]
  by_cases h1 : configChecker c = true
  · by_cases h2 : a.shape.length = c.length
    · simp only [h1, h2, if_true, ne_eq, not_true, if_false, true_and]
      constructor
      · intro h; injection h with h; exact h.symm
      · intro h; rw [h]
    · simp [h1, h2]
  · simp [h1]

theorem mkTensor_err (arr : ArrArg R) (c : CfgArg) (name : Option String) (e : PyErr)
    (h : mkTensor arr c name = .error e) : e = .typeError ∨ e = .valueError := by
  unfold mkTensor at h
  split at h
  · left; injection h with h; exact h.symm
  · split at h
    · left; injection h with h; exact h.symm
    · split_ifs at h
      · right; injection h with h; exact h.symm
      · left; injection h with h; exact h.symm

theorem mkBase_ok_iff (a : NDArr R) (syms : List String) (c : Config)
    (parent : Option (MetricV R)) (name : Option String) (t : Obj R) :
    mkBase (.arr a) (.seq syms) (.str c) parent name = .ok t ↔
      ValidConfig c ∧ a.shape.length = c.length ∧ (∀ d ∈ a.shape.head?, d = syms.length) ∧
        t = ⟨.base, a, c, c.length, syms, parent, name⟩ := by
  unfold mkBase
  cases hm : mkTensor (.arr a) (.str c) name with
  | error e =>
    constructor
    · intro h; cases h
    · rintro ⟨h1, h2, -⟩
      rw [mkTensor_str a c name h1 h2] at hm; cases hm
  | ok t0 =>
    obtain ⟨h1, h2, rfl⟩ := (mkTensor_ok_iff a c name t0).mp hm
    show (match shapeCheck a (.seq syms) with | some e => _ | none => _) = _ ↔ _
    have hsc : shapeCheck a (.seq syms) = none ↔ ∀ d ∈ a.shape.head?, d = syms.length := by
      unfold shapeCheck
      rcases a.shape with _ | ⟨d, l⟩ <;> simp
    by_cases h3 : shapeCheck a (.seq syms) = none
    · rw [h3]
      have := hsc.mp h3
      constructor
      · intro h; injection h with h; exact ⟨h1, h2, this, h.symm⟩
      · rintro ⟨-, -, -, rfl⟩; rfl
    · obtain ⟨e, he⟩ := Option.ne_none_iff_exists'.mp h3
      rw [he]
      constructor
      · intro h; cases h
      · rintro ⟨-, -, h, -⟩; exact absurd (hsc.mpr h) h3

theorem mkBase_err (arr : ArrArg R) (syms : SymsArg) (c : CfgArg) (parent : Option (MetricV R))
    (name : Option String) (e : PyErr) (h : mkBase arr syms c parent name = .error e) :
    e = .typeError ∨ e = .valueError := by
  unfold mkBase at h
  cases hm : mkTensor arr c name with
  | error e' =>
    rw [hm] at h
    have : e' = e := by injection h
    exact this ▸ mkTensor_err _ _ _ _ hm
  | ok t0 =>
    rw [hm] at h
    change (match shapeCheck t0.arr syms with | some e => _ | none => _) = _ at h
    have hsc : ∀ e', shapeCheck t0.arr syms = some e' → e' = .typeError ∨ e' = .valueError := by
      intro e' he
      unfold shapeCheck at he
      rcases hs : t0.arr.shape with _ | ⟨d, l⟩ <;> rw [hs] at he
      · cases he
      · rcases syms with s | n | _
        · simp only at he
          split_ifs at he
          right; injection he with he; exact he.symm
        · simp only at he
          split_ifs at he
          right; injection he with he; exact he.symm
        · left; injection he with he; exact he.symm
    split at h
    · rename_i e' he
      have : e' = e := by injection h
      exact this ▸ hsc e' he
    · split at h
      · cases h
      · left; injection h with h; exact h.symm

/-- **C07** (invariant and acceptance criterion).  A constructor accepts exactly the arguments
described by `CtorOK`, and then stores them unchanged with `order = rank = len(config)`. -/
theorem C07_constructor_iff (k : Kind) (a : NDArr R) (syms : List String) (c : Config)
    (parent : Option (MetricV R)) (name : Option String) (hk : k ≠ .ricciScalar) :
    (Returns (mkKind k (.arr a) (.seq syms) (.str c) parent name) fun t =>
      t.kind = k ∧ t.arr = a ∧ t.config = c ∧ t.order = c.length ∧ t.order = t.arr.rank ∧
      t.name = name ∧ (k ≠ .tensor → t.syms = syms ∧ t.parent = parent)) ↔
    CtorOK k a syms c := by
  by_cases hk0 : k.order = none
  · have : k = .tensor ∨ k = .base := by cases k <;> simp_all [Kind.order]
    rcases this with rfl | rfl
    · constructor
      · rintro ⟨t, ht, -⟩
        obtain ⟨h1, h2, -⟩ := (mkTensor_ok_iff a c name t).mp ht
        exact ⟨h1, h2, by simp, by simp [Kind.order]⟩
      · intro h
        refine ⟨_, (mkTensor_ok_iff a c name _).mpr ⟨h.letters, h.rank, rfl⟩, rfl, rfl, rfl, rfl,
          h.rank.symm, rfl, by simp⟩
    · constructor
      · rintro ⟨t, ht, -⟩
        obtain ⟨h1, h2, h3, -⟩ := (mkBase_ok_iff a syms c parent name t).mp ht
        exact ⟨h1, h2, fun _ => h3, by simp [Kind.order]⟩
      · intro h
        refine ⟨_, (mkBase_ok_iff a syms c parent name _).mpr
          ⟨h.letters, h.rank, h.lead (by simp), rfl⟩, rfl, rfl, rfl, rfl, h.rank.symm, rfl, by simp⟩
  · obtain ⟨o, ho⟩ := Option.ne_none_iff_exists'.mp hk0
    have hkt : k ≠ .tensor := by rintro rfl; simp [Kind.order] at ho
    have hdef : mkKind k (.arr a) (.seq syms) (.str c) parent name =
        (mkBase (.arr a) (.seq syms) (.str c) parent name >>= fun t =>
          if t.config.length = o then .ok ⟨k, t.arr, t.config, o, t.syms, t.parent, t.name⟩
          else .error .valueError) := by
      cases k <;> simp only [Kind.order, Option.some.injEq, reduceCtorEq] at ho <;> subst ho <;>
        first | rfl | exact absurd rfl hk
    rw [hdef]
    constructor
    · rintro ⟨t, ht, -⟩
      cases hb : mkBase (.arr a) (.seq syms) (.str c) parent name with
      | error e => rw [hb] at ht; cases ht
      | ok t0 =>
        rw [hb] at ht
        obtain ⟨h1, h2, h3, rfl⟩ := (mkBase_ok_iff a syms c parent name t0).mp hb
        change (if c.length = o then _ else _) = _ at ht
        split_ifs at ht with hco
        exact ⟨h1, h2, fun _ => h3, by rw [ho]; intro o' h; cases h; exact hco⟩
    · intro h
      have hco : c.length = o := h.order o (by rw [ho]; rfl)
      rw [(mkBase_ok_iff a syms c parent name _).mpr ⟨h.letters, h.rank, h.lead hkt, rfl⟩]
      refine ⟨⟨k, a, c, o, syms, parent, name⟩, ?_, rfl, rfl, rfl, hco.symm, ?_, rfl,
        fun _ => ⟨rfl, rfl⟩⟩
      · show (if c.length = o then _ else _) = _
        rw [if_pos hco]
      · exact hco.symm.trans h.rank.symm

/-- **C07** (`RicciScalar`).  Its constructor accepts exactly rank-0 arrays. -/
theorem C07_ricci_scalar_iff (a : NDArr R) (syms : List String) (cfg : CfgArg)
    (parent : Option (MetricV R)) (name : Option String) :
    (Returns (mkKind .ricciScalar (.arr a) (.seq syms) cfg parent name) fun t =>
      t.kind = .ricciScalar ∧ t.arr = a ∧ t.config = [] ∧ t.order = 0 ∧ t.syms = syms) ↔
    a.shape = [] := by
  show (Returns (mkBase (.arr a) (.seq syms) (.str []) parent name >>= fun t => _) _) ↔ _
  constructor
  · rintro ⟨t, ht, -⟩
    cases hb : mkBase (.arr a) (.seq syms) (.str []) parent name with
    | error e => rw [hb] at ht; cases ht
    | ok t0 =>
      obtain ⟨-, h2, -, -⟩ := (mkBase_ok_iff a syms [] parent name t0).mp hb
      exact List.eq_nil_of_length_eq_zero h2
  · intro h
    rw [(mkBase_ok_iff a syms [] parent name _).mpr
      ⟨by intro ch h; simp at h, by simp [h], by simp [h], rfl⟩]
    exact ⟨_, rfl, rfl, rfl, rfl, rfl, rfl⟩

/-- **C07** (errors).  Whatever arguments are passed, a constructor that fails raises `TypeError` or
`ValueError`. -/
theorem C07_constructor_errors (k : Kind) (arr : ArrArg R) (syms : SymsArg) (cfg : CfgArg)
    (parent : Option (MetricV R)) (name : Option String) (e : PyErr)
    (h : mkKind k arr syms cfg parent name = .error e) : e = .typeError ∨ e = .valueError := by
  by_cases hk : k = .tensor
  · subst hk; exact mkTensor_err _ _ _ _ h
  · have hb : ∀ c, (∃ e', mkBase arr syms c parent name = .error e' ∧ e' = e) →
        e = .typeError ∨ e = .valueError := by
      rintro c ⟨e', h1, rfl⟩; exact mkBase_err _ _ _ _ _ _ h1
    cases k <;> first
      | exact absurd rfl hk
      | exact mkBase_err _ _ _ _ _ _ h
      | (simp only [mkKind, Kind.order] at h
         cases hm : mkBase arr syms cfg parent name with
         | error e' => rw [hm] at h; exact hb _ ⟨e', hm, by injection h⟩
         | ok t =>
           rw [hm] at h
           simp only [bind, Except.bind] at h
           split at h
           · cases h
           · right; injection h with h; exact h.symm)
      | (simp only [mkKind] at h
         cases hm : mkBase arr syms (.str []) parent name with
         | error e' => rw [hm] at h; exact hb _ ⟨e', hm, by injection h⟩
         | ok t => rw [hm] at h; cases h)

/-- non-array, non-string and non-list arguments are rejected -/
theorem C07_wrong_types_raise (k : Kind) (a : NDArr R) (syms : SymsArg) (cfg : CfgArg)
    (parent : Option (MetricV R)) (name : Option String) :
    Raises (mkKind k (.other : ArrArg R) syms cfg parent name) .typeError ∧
    (k ≠ .ricciScalar → Raises (mkKind k (.arr a) syms .other parent name) .typeError) ∧
    (k ≠ .tensor → k ≠ .ricciScalar → ∀ c : Config,
      Raises (mkKind k (.arr a) .unsized (.str c) parent name) .typeError ∨
      Raises (mkKind k (.arr a) .unsized (.str c) parent name) .valueError) := by
  refine ⟨?_, ?_, ?_⟩
  · cases k <;> rfl
  · intro hk; cases k <;> first | rfl | exact absurd rfl hk
  · intro hk hk2 c
    cases hm : mkKind k (.arr a) .unsized (.str c) parent name with
    | error e =>
      rcases C07_constructor_errors _ _ _ _ _ _ _ hm with h | h <;> simp [Raises, h]
    | ok t =>
      exfalso
      have hb : ∀ t, mkBase (.arr a) .unsized (.str c) parent name ≠ .ok t := by
        intro t h
        unfold mkBase at h
        cases hmm : mkTensor (.arr a) (.str c) name with
        | error e' => rw [hmm] at h; cases h
        | ok t0 =>
          rw [hmm] at h
          change (match shapeCheck t0.arr .unsized with | some e => _ | none => _) = _ at h
          split at h <;> cases h
      cases hb' : mkBase (.arr a) .unsized (.str c) parent name with
      | ok t0 => exact hb _ hb'
      | error e =>
        cases k <;> first
          | exact absurd rfl hk
          | exact absurd rfl hk2
          | exact hb _ hm
          | (simp only [mkKind, hb', bind, Except.bind] at hm; cases hm)

/-- An error of `BaseRelativityTensor.__init__` is the error of every subclass constructor. -/
theorem mkKind_base_err {k : Kind} (hk : k ≠ .tensor) (hk2 : k ≠ .ricciScalar) {arr : ArrArg R} {syms : SymsArg} {cfg : CfgArg}
    {parent : Option (MetricV R)} {name : Option String} {e : PyErr} (h : mkBase arr syms cfg parent name = .error e) :
    Raises (mkKind k arr syms cfg parent name) e := by
  unfold Raises
  cases k <;> first
    | exact absurd rfl hk
    | exact absurd rfl hk2
    | exact h
    | (simp only [mkKind, h, bind, Except.bind])

/-- **C07** (which error).  The first violated condition, in this order, decides which exception a constructor raises: a letter other than
`u` and `l` (TypeError), a configuration whose length is not the rank of the array (ValueError), symbols without a length (TypeError), a number
of symbols different from the length of the leading axis (ValueError), symbols that are neither list nor tuple (TypeError), and a configuration
of the wrong length for the class (ValueError). -/
theorem C07_error_kind (k : Kind) (hk : k ≠ .tensor) (hk2 : k ≠ .ricciScalar) (a : NDArr R) (c : Config) (parent : Option (MetricV R))
    (name : Option String) :
    (¬ ValidConfig c → ∀ syms, Raises (mkKind k (.arr a) syms (.str c) parent name) .typeError) ∧
    (ValidConfig c → a.shape.length ≠ c.length → ∀ syms, Raises (mkKind k (.arr a) syms (.str c) parent name) .valueError) ∧
    (ValidConfig c → a.shape.length = c.length → Raises (mkKind k (.arr a) .unsized (.str c) parent name) .typeError) ∧
    (ValidConfig c → a.shape.length = c.length → ∀ d, a.shape.head? = some d →
      (∀ s : List String, s.length ≠ d → Raises (mkKind k (.arr a) (.seq s) (.str c) parent name) .valueError) ∧
      ∀ n, Raises (mkKind k (.arr a) (.otherSized n) (.str c) parent name) (if n = d then .typeError else .valueError)) ∧
    (ValidConfig c → a.shape.length = c.length → ∀ s : List String, (∀ d ∈ a.shape.head?, d = s.length) →
      (∃ o, k.order = some o ∧ c.length ≠ o) → Raises (mkKind k (.arr a) (.seq s) (.str c) parent name) .valueError) := by
  have hT : ¬ ValidConfig c → mkTensor (.arr a) (.str c) name = .error .typeError := by
    intro h
    rw [← configChecker_iff] at h
    simp [mkTensor, h]
  have hV : ValidConfig c → a.shape.length ≠ c.length → mkTensor (.arr a) (.str c) name = .error .valueError := by
    intro h h'
    rw [← configChecker_iff] at h
    simp [mkTensor, h, h']
  refine ⟨fun h syms => mkKind_base_err hk hk2 ?_, fun h h' syms => mkKind_base_err hk hk2 ?_, fun h h' => mkKind_base_err hk hk2 ?_,
    fun h h' d hd => ⟨fun s hs => mkKind_base_err hk hk2 ?_, fun n => mkKind_base_err hk hk2 ?_⟩, fun h h' s hs ho => ?_⟩
  · simp only [mkBase, hT h, bind, Except.bind]
  · simp only [mkBase, hV h h', bind, Except.bind]
  · simp only [mkBase, mkTensor_str a c name h h', bind, Except.bind, shapeCheck]
    rcases a.shape with _ | ⟨d, l⟩ <;> rfl
  · obtain ⟨l, hl⟩ : ∃ l, a.shape = d :: l := by
      rcases hsh : a.shape with _ | ⟨d', l⟩
      · rw [hsh] at hd; cases hd
      · rw [hsh] at hd; exact ⟨l, by simpa using hd⟩
    simp only [mkBase, mkTensor_str a c name h h', bind, Except.bind, shapeCheck, hl]
    rw [if_pos fun e => hs e.symm]
  · obtain ⟨l, hl⟩ : ∃ l, a.shape = d :: l := by
      rcases hsh : a.shape with _ | ⟨d', l⟩
      · rw [hsh] at hd; cases hd
      · rw [hsh] at hd; exact ⟨l, by simpa using hd⟩
    simp only [mkBase, mkTensor_str a c name h h', bind, Except.bind, shapeCheck, hl]
    by_cases hn : n = d
    · subst hn
      simp
    · have hn' : ¬ d = n := fun e => hn e.symm
      simp [hn, hn']
  · obtain ⟨o, ho, hne⟩ := ho
    have hb := (mkBase_ok_iff a s c parent name _).2 ⟨h, h', hs, rfl⟩
    unfold Raises
    cases k <;> first
      | exact absurd rfl hk
      | exact absurd rfl hk2
      | (simp only [Kind.order] at ho; cases ho; done)
      | (simp only [Kind.order, Option.some.injEq] at ho
         subst ho
         simp only [mkKind, hb, bind, Except.bind, Kind.order]
         rw [if_neg hne]; rfl)

/-- three symbols given as a set, for a 3×3 array: TypeError; two: ValueError -/
example : Raises (mkKind (R := ℚ) .ricci (.arr ⟨[3, 3], fun _ => 0⟩) (.otherSized 3) (.str ['l', 'l']) none none) .typeError ∧
    Raises (mkKind (R := ℚ) .ricci (.arr ⟨[3, 3], fun _ => 0⟩) (.otherSized 2) (.str ['l', 'l']) none none) .valueError := by
  have h := fun n => ((C07_error_kind (R := ℚ) .ricci (by decide) (by decide) ⟨[3, 3], fun _ => 0⟩ ['l', 'l'] none none).2.2.2.1
    (by intro ch h; simp at h; simp [h]) rfl 3 rfl).2 n
  exact ⟨by simpa using h 3, by simpa using h 2⟩
example : CtorOK (R := ℚ) .riemann ⟨[3, 3, 3, 3], fun _ => 0⟩ ["x", "y", "z"] ['u', 'l', 'l', 'l'] :=
  ⟨by intro ch h; simp at h; rcases h with rfl | rfl <;> simp, rfl, by simp, by simp [Kind.order]⟩

/-- a Christoffel constructor call with a rank-3 array but configuration `ul` is refused -/
example : ¬ CtorOK (R := ℚ) .christoffel ⟨[2, 2, 2], fun _ => 0⟩ ["x", "y"] ['u', 'l'] :=
  fun h => by have := h.rank; simp at this

/-! ## C08 `subs` -/

/-- **C08** (what holds).  For tensors of configuration `ll`, `subs` substitutes in every component and
keeps configuration and order (the name is always dropped). -/
theorem C08_subs_ll_partial (t : Obj R) [CommRing R] (sub : R → R) (hc : t.config = ['l', 'l'])
    (hr : t.arr.shape.length = 2) :
    Returns (t.subs sub) fun t' =>
      t'.config = t.config ∧ t'.order = 2 ∧ t'.arr.shape = t.arr.shape ∧
      ∀ idx, t'.arr.get idx = sub (t.arr.get idx) := by
  refine ⟨_, mkTensor_str _ _ _ (by intro ch h; simp at h; simp [h]) (by simpa [NDArr.map] using hr),
    hc.symm, rfl, rfl, fun _ => rfl⟩

/-- **C08** (refutation).  For every tensor whose rank is not 2 — vectors, Christoffel symbols, Riemann
and Weyl tensors, scalars — `subs` raises `ValueError`, whatever is substituted; and for every
rank-2 tensor that is not `ll` it returns a tensor with a different configuration. -/
theorem C08_subs_refuted (t : Obj R) [CommRing R] (sub : R → R) :
    (t.arr.shape.length ≠ 2 → Raises (t.subs sub) .valueError) ∧
    (t.arr.shape.length = 2 → t.config ≠ ['l', 'l'] →
      Returns (t.subs sub) fun t' => t'.config ≠ t.config) := by
  have hv : configChecker ['l', 'l'] = true := by
    rw [configChecker_iff]; intro ch h; simp at h; simp [h]
  constructor
  · intro h
    unfold Raises Obj.subs mkTensor
    simp [hv, NDArr.map, h]
  · intro h hc
    refine ⟨_, mkTensor_str _ _ _ ((configChecker_iff _).mp hv) (by simpa [NDArr.map] using h), ?_⟩
    exact fun e => hc e.symm

example : Raises (exVec.subs (fun x => x + 1)) .valueError :=
  (C08_subs_refuted exVec _).1 (by decide)

/-! ## C10 `lower_config` -/

/-- A metric object of any configuration describing the space with covariant metric `g`: a mixed
metric has components `δ^a_b`. -/
def MetricV.RepresentsAny [CommRing R] {n : Nat} (m : MetricV R) (g : Matrix (Fin n) (Fin n) R) :
    Prop :=
  m.Represents g ∨ (m.arr.shape = [n, n] ∧ IsUnit g.det ∧ m.arr.toMatrix n = 1 ∧
    (m.config = ['u', 'l'] ∨ m.config = ['l', 'u']))

/-- **C10** (what holds).  For covariant and contravariant metric objects, `lower_config` returns the
covariant metric with configuration `ll`. -/
theorem C10_lower_config_partial [CommRing R] {n : Nat} (m : MetricV R)
    (g : Matrix (Fin n) (Fin n) R) (h : m.Represents g) :
    Returns m.lowerConfig fun lo => lo.config = ['l', 'l'] ∧ lo.arr.shape = [n, n] ∧
      lo.arr.toMatrix n = g ∧ lo.syms = m.syms := by
  obtain ⟨lo, up, h1, -, h3, -, h5, -, h7, h8⟩ := metric_dict m g h
  exact ⟨lo, h1, h7, h3, h5, h8⟩

/-- **C10** (refutation).  There is a mixed metric object accepted by the constructor for which
`lower_config` returns, labelled `ll`, an array that is not the covariant metric. -/
theorem C10_lower_config_refuted :
    ∃ (m : MetricV ℚ) (g : Matrix (Fin 2) (Fin 2) ℚ), m.RepresentsAny g ∧
      (∃ o, mkKind .metric (.arr m.arr) (.seq m.syms) (.str m.config) none m.name = .ok o) ∧
      Returns m.lowerConfig fun lo => lo.config = ['l', 'l'] ∧ lo.arr.toMatrix 2 ≠ g := by
  refine ⟨⟨NDArr.ofMatrix (1 : Matrix (Fin 2) (Fin 2) ℚ), ['u', 'l'], ["t", "x"], none⟩, !![-1, 2; 2, 3],
    Or.inr ⟨rfl, exMetric_represents.2.1, toMatrix_ofMatrix _, Or.inl rfl⟩, ?_, ?_⟩
  · exact ⟨_, mkKind_cube (n := 2) .metric _ _ _ _ _
      (by intro ch h; simp at h; rcases h with rfl | rfl <;> simp) rfl rfl rfl⟩
  · have hinv : (NDArr.ofMatrix (1 : Matrix (Fin 2) (Fin 2) ℚ)).inv = .ok (NDArr.ofMatrix (1 : Matrix (Fin 2) (Fin 2) ℚ)) := by
      rw [NDArr.inv_ok (n := 2) _ rfl (by rw [toMatrix_ofMatrix]; simp), toMatrix_ofMatrix, inv_one]
    refine ⟨⟨NDArr.ofMatrix (1 : Matrix (Fin 2) (Fin 2) ℚ), ['l', 'l'], ["t", "x"], none⟩, ?_, rfl, ?_⟩
    · simp only [MetricV.lowerConfig, MetricV.inv, MetricV.changeConfig]
      rw [hinv]
      simp [changeName]
    · rw [toMatrix_ofMatrix]
      intro h
      have := congrFun (congrFun h 0) 0
      simp at this
      norm_num at this

end
end Einpy
