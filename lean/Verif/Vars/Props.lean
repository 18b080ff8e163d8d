import Verif.Vars.Model
import Verif.Tensor.Props2

/-!
# Property C12: declared variables are the free symbols; lambdify argument order
-/

namespace Einpy
open Classical

variable {R V : Type*} [CommRing R]

/-! ## specification -/

/-- `it` is a possible iteration order of Python sets of symbols: each set is listed completely,
without repetition, in some order. -/
def IterOrder (it : Finset Sym → List Sym) : Prop := ∀ s, (it s).Nodup ∧ ∀ v, v ∈ it s ↔ v ∈ s

/-- `v` occurs in some component of the array. -/
def OccursIn (E : ExprSem R V) (a : NDArr R) (v : Sym) : Prop :=
  ∃ idx, List.Forall₂ (fun n i => i < n) a.shape idx ∧ v ∈ E.free (a.get idx)

/-- The list of declared variables is the one the documentation promises. -/
def VariablesOK (E : ExprSem R V) (t : VTensor R) : Prop :=
  (∀ v, v ∈ t.vars ↔ OccursIn E t.obj.arr v ∧ v ∉ t.syms) ∧ t.vars.Nodup ∧
    t.vars.Pairwise (fun a b => a.name ≤ b.name)

/-! ## lemmas -/

theorem mem_allIdx (shape idx : List Nat) :
    idx ∈ allIdx shape ↔ List.Forall₂ (fun n i => i < n) shape idx := by
  induction shape generalizing idx with
  | nil => simp [allIdx]
  | cons n s ih =>
    simp only [allIdx, List.mem_flatMap, List.mem_range, List.mem_map]
    constructor
    · rintro ⟨i, hi, is, his, rfl⟩
      exact List.Forall₂.cons hi ((ih is).mp his)
    · intro h
      cases h with
      | @cons _ i _ is hi hr => exact ⟨i, hi, is, (ih is).mpr hr, rfl⟩

theorem mem_freeSymbols (E : ExprSem R V) (a : NDArr R) (v : Sym) :
    v ∈ a.freeSymbols E ↔ OccursIn E a v := by
  simp [NDArr.freeSymbols, OccursIn, mem_allIdx]

theorem computeVariables_spec (it : Finset Sym → List Sym) (hit : IterOrder it) (fs : Finset Sym)
    (syms : List Sym) :
    (∀ v, v ∈ computeVariables it fs syms ↔ v ∈ fs ∧ v ∉ syms) ∧ (computeVariables it fs syms).Nodup ∧
    (computeVariables it fs syms).Pairwise (fun a b => a.name ≤ b.name) := by
  have htot : Std.Total (fun a b : Sym => a.name ≤ b.name) := ⟨fun a b => le_total _ _⟩
  have htr : IsTrans Sym (fun a b : Sym => a.name ≤ b.name) := ⟨fun a b c h1 h2 => le_trans h1 h2⟩
  refine ⟨?_, ?_, ?_⟩
  · intro v
    rw [computeVariables, List.mem_insertionSort, List.mem_filter]
    simp [(hit fs).2 v]
  · rw [computeVariables, (List.perm_insertionSort _ _).nodup_iff]
    exact (hit fs).1.filter _
  · exact List.pairwise_insertionSort _ _

theorem mkBase_fields (arr : NDArr R) (syms : List String) (config : Config)
    (parent : Option (MetricV R)) (name : Option String) (o : Obj R)
    (ho : mkBase (.arr arr) (.seq syms) (.str config) parent name = .ok o) :
    o.arr = arr ∧ o.config = config := by
  unfold mkBase mkTensor at ho
  simp only at ho
  by_cases h1 : configChecker config = true
  · by_cases h2 : arr.shape.length ≠ config.length
    · rw [if_pos h1, if_pos h2] at ho; cases ho
    · rw [if_pos h1, if_neg h2] at ho
      simp only [bind, Except.bind] at ho
      split at ho
      · cases ho
      · cases ho; exact ⟨rfl, rfl⟩
  · rw [if_neg h1] at ho; cases ho

theorem mkBaseV_arr (E : ExprSem R V) (it : Finset Sym → List Sym) (arr : NDArr R) (syms : List Sym)
    (config : Config) (parent : Option (MetricV R)) (vars : List Sym) (name : Option String)
    (t : VTensor R) (h : mkBaseV E it arr syms config parent vars name = .ok t) :
    t.obj.arr = arr ∧ t.syms = syms ∧ t.obj.config = config ∧
      t.vars = (if vars = [] then computeVariables it (arr.freeSymbols E) syms else vars) := by
  unfold mkBaseV at h
  cases ho : mkBase (.arr arr) (.seq (syms.map Sym.name)) (.str config) parent name with
  | error e => rw [ho] at h; cases h
  | ok o =>
    rw [ho] at h
    have hoa := mkBase_fields _ _ _ _ _ _ ho
    cases h
    exact ⟨hoa.1, rfl, hoa.2, by rw [hoa.1]⟩

/-! ## theorems -/

/-- **C12** (constructed tensors).  When the constructor is called without `variables` and succeeds, the
declared variables are exactly the symbols occurring in the components that are not coordinates, without
repetition and sorted by name, for every hash order of sets. -/
theorem C12_constructed_variables (E : ExprSem R V) (it : Finset Sym → List Sym) (hit : IterOrder it)
    (arr : NDArr R) (syms : List Sym) (config : Config) (parent : Option (MetricV R))
    (name : Option String) (t : VTensor R)
    (h : mkBaseV E it arr syms config parent [] name = .ok t) :
    VariablesOK E t ∧ t.obj.arr = arr ∧ t.syms = syms := by
  obtain ⟨h1, h2, -, h3⟩ := mkBaseV_arr E it arr syms config parent [] name t h
  rw [if_pos rfl] at h3
  obtain ⟨k1, k2, k3⟩ := computeVariables_spec it hit (arr.freeSymbols E) syms
  refine ⟨⟨?_, ?_, ?_⟩, h1, h2⟩
  · intro v; rw [h3, k1, h1, h2, mem_freeSymbols]
  · rw [h3]; exact k2
  · rw [h3]; exact k3

/-- **C12** (determinism).  If the non-coordinate symbols have different names, the declared variables do
not depend on the hash order of Python sets. -/
theorem C12_deterministic (E : ExprSem R V) (it it' : Finset Sym → List Sym) (hit : IterOrder it)
    (hit' : IterOrder it') (arr : NDArr R) (syms : List Sym) (config : Config)
    (parent : Option (MetricV R)) (name : Option String)
    (hnames : ∀ v w, OccursIn E arr v → OccursIn E arr w → v.name = w.name → v = w) :
    mkBaseV E it arr syms config parent [] name = mkBaseV E it' arr syms config parent [] name := by
  have hcv : computeVariables it (arr.freeSymbols E) syms
      = computeVariables it' (arr.freeSymbols E) syms := by
    obtain ⟨k1, k2, k3⟩ := computeVariables_spec it hit (arr.freeSymbols E) syms
    obtain ⟨l1, l2, l3⟩ := computeVariables_spec it' hit' (arr.freeSymbols E) syms
    refine List.Perm.eq_of_pairwise (le := fun a b => a.name ≤ b.name) ?_ k3 l3 ?_
    · intro a b ha hb hab hba
      exact hnames a b ((mem_freeSymbols E arr a).mp ((k1 a).mp ha).1)
        ((mem_freeSymbols E arr b).mp ((l1 b).mp hb).1) (le_antisymm hab hba)
    · rw [List.perm_ext_iff_of_nodup k2 l2]
      intro v; rw [k1, l1]
  unfold mkBaseV
  cases ho : mkBase (.arr arr) (.seq (syms.map Sym.name)) (.str config) parent name with
  | error e => rfl
  | ok o =>
    have hoa := (mkBase_fields _ _ _ _ _ _ ho).1
    simp [bind, Except.bind, hoa, hcv]

/-- **C12** (lambdify).  For a constructed tensor with distinct coordinates, `tensor_lambdify()` returns
the arguments "coordinates, then variables", and the function applied to the values of these arguments in
any environment evaluates every component in that environment: no symbol is left unbound. -/
theorem C12_lambdify (E : ExprSem R V) (default : V) (it : Finset Sym → List Sym) (hit : IterOrder it)
    (arr : NDArr R) (syms : List Sym) (hsyms : syms.Nodup) (config : Config)
    (parent : Option (MetricV R)) (name : Option String) (t : VTensor R)
    (h : mkBaseV E it arr syms config parent [] name = .ok t) (env : Sym → V) :
    lambdifyArgs t [] = syms ++ t.vars ∧
    ∃ out, t.lambdify E default ((syms ++ t.vars).map env) = .ok out ∧ out.shape = arr.shape ∧
      ∀ idx, List.Forall₂ (fun n i => i < n) arr.shape idx → out.get idx = E.eval env (arr.get idx) := by
  obtain ⟨⟨v1, v2, v3⟩, h1, h2⟩ := C12_constructed_variables E it hit arr syms config parent name t h
  have hargs : lambdifyArgs t [] = syms ++ t.vars := by simp [lambdifyArgs, h2]
  have hnd : (syms ++ t.vars).Nodup := by
    rw [List.nodup_append]
    refine ⟨hsyms, v2, ?_⟩
    intro a ha b hb hab
    subst hab
    exact ((v1 a).mp hb).2 (h2 ▸ ha)
  have hsub : arr.freeSymbols E ⊆ (syms ++ t.vars).toFinset := by
    intro v hv
    rw [List.mem_toFinset, List.mem_append]
    by_cases hs : v ∈ syms
    · exact Or.inl hs
    · right
      rw [v1, h1, h2]
      exact ⟨(mem_freeSymbols E arr v).mp hv, hs⟩
  have e : t.lambdify E default ((syms ++ t.vars).map env)
      = .ok (arr.map (E.eval fun s => ((syms ++ t.vars).map env).getD
          ((syms ++ t.vars).idxOf s) default)) := by
    unfold VTensor.lambdify lambdifyCall
    rw [hargs, h1, if_neg (by simpa using hnd), if_neg (by simp), if_neg (by simpa using hsub)]
  refine ⟨hargs, _, e, rfl, ?_⟩
  intro idx hidx
  refine E.congr _ _ _ ?_
  intro s hs
  have hmem : s ∈ syms ++ t.vars := by
    have := hsub ((mem_freeSymbols E arr s).mpr ⟨idx, hidx, hs⟩)
    simpa using this
  have hlt := List.idxOf_lt_length_of_mem hmem
  rw [List.getD_eq_getElem?_getD, List.getElem?_map, List.getElem?_eq_getElem hlt]
  simp

/-- **C12** (tensor products, part).  The declared variables of a tensor product are right when the first
factor declares none.  Missing: the case in which it declares some, where the property is false
(`C12_tensor_product_refuted`). -/
theorem C12_tensor_product_partial (E : ExprSem R V) (it : Finset Sym → List Sym) (hit : IterOrder it)
    (t1 t2 : VTensor R) (i j : Option Nat) (hv : t1.vars = []) (t : VTensor R)
    (h : tensorProductV E it t1 t2 i j = .ok t) : VariablesOK E t := by
  unfold tensorProductV at h
  cases ho : tensorProduct t1.obj t2.obj i j with
  | error e => rw [ho] at h; cases h
  | ok o =>
    rw [ho] at h
    cases h
    rw [if_pos hv]
    obtain ⟨k1, k2, k3⟩ := computeVariables_spec it hit (o.arr.freeSymbols E) t1.syms
    exact ⟨fun v => by rw [k1, mem_freeSymbols], k2, k3⟩

/-! ## concrete instance: polynomials -/

/-- Polynomial expressions with rational values. -/
noncomputable def polySem : ExprSem (MvPolynomial Sym ℚ) ℚ where
  free p := p.vars
  eval env p := MvPolynomial.eval env p
  congr e1 e2 p h := by
    refine MvPolynomial.hom_congr_vars (by ext; simp) ?_ rfl
    intro i hi _
    simpa using h i hi

def symT : Sym := ⟨"t", 0⟩
def symA : Sym := ⟨"a", 0⟩
def symB : Sym := ⟨"b", 0⟩

/-- A one-dimensional vector (component `p`) with configuration `c`. -/
noncomputable def polyArr (p : MvPolynomial Sym ℚ) : NDArr (MvPolynomial Sym ℚ) := ⟨[1], fun _ => p⟩

theorem polyArr_free (p : MvPolynomial Sym ℚ) : (polyArr p).freeSymbols polySem = p.vars := by
  ext v
  rw [mem_freeSymbols]
  constructor
  · rintro ⟨_, _, h⟩; exact h
  · intro h; exact ⟨[0], List.Forall₂.cons (by omega) List.Forall₂.nil, h⟩

/-- an iteration order exists -/
theorem iterOrder_toList : IterOrder Finset.toList := fun s =>
  ⟨s.nodup_toList, fun v => by simp⟩

theorem polyVec_mk (s : Sym) (hs : s ≠ symT) (c : Char) (hc : c = 'u' ∨ c = 'l') :
    ∃ o, mkBaseV polySem Finset.toList (polyArr (MvPolynomial.X s)) [symT] [c] none [] none
      = .ok ⟨o, [symT], [s]⟩ ∧ o.arr = polyArr (MvPolynomial.X s) ∧ o.config = [c] ∧
        o.syms = ["t"] := by
  have hb : ∃ o, mkBase (.arr (polyArr (MvPolynomial.X s))) (.seq ([symT].map Sym.name)) (.str [c]) none
      none = .ok o ∧ o.arr = polyArr (MvPolynomial.X s) ∧ o.config = [c] ∧ o.syms = ["t"] := by
    refine ⟨_, mkBase_cube (n := 1) _ _ _ _ _ ?_ rfl rfl, rfl, rfl, rfl⟩
    intro ch hch
    rw [List.mem_singleton] at hch
    rw [hch]; exact hc
  obtain ⟨o, ho, h1, h2, h3⟩ := hb
  refine ⟨o, ?_, h1, h2, h3⟩
  unfold mkBaseV
  rw [ho]
  simp only [bind, Except.bind, pure, Except.pure, h1, polyArr_free, MvPolynomial.vars_X, if_true]
  simp [computeVariables, hs]

/-- **C12** (refutation for tensor products).  There are two tensors built by the constructor, with
their variables computed by it, whose `tensor_product` succeeds and does not declare a symbol occurring
in its components; `tensor_lambdify()` of the product then raises `NameError`. -/
theorem C12_tensor_product_refuted :
    ∃ (it : Finset Sym → List Sym) (t1 t2 t : VTensor (MvPolynomial Sym ℚ))
      (a1 a2 : NDArr (MvPolynomial Sym ℚ)), IterOrder it ∧
      mkBaseV polySem it a1 [symT] ['u'] none [] none = .ok t1 ∧
      mkBaseV polySem it a2 [symT] ['l'] none [] none = .ok t2 ∧
      tensorProductV polySem it t1 t2 none none = .ok t ∧
      OccursIn polySem t.obj.arr symB ∧ symB ∉ t.syms ∧ symB ∉ t.vars ∧
      ∀ vals, vals.length = 2 → Raises (t.lambdify polySem 0 vals) .nameError := by
  obtain ⟨o1, h1, e1, c1, s1⟩ := polyVec_mk symA (by decide) 'u' (Or.inl rfl)
  obtain ⟨o2, h2, e2, c2, s2⟩ := polyVec_mk symB (by decide) 'l' (Or.inr rfl)
  have hp : ∃ o, tensorProduct o1 o2 none none = .ok o ∧
      o.arr = (polyArr (MvPolynomial.X symA)).tensorproduct (polyArr (MvPolynomial.X symB)) := by
    have hm := mkBase_cube (n := 1)
      ((polyArr (MvPolynomial.X symA)).tensorproduct (polyArr (MvPolynomial.X symB))) ['u', 'l'] ["t"]
      o1.parent (some "GenericTensor") (by intro ch h; simp at h; tauto) rfl rfl
    have ht : tensorProduct o1 o2 none none = mkBase
        (.arr ((polyArr (MvPolynomial.X symA)).tensorproduct (polyArr (MvPolynomial.X symB))))
        (.seq ["t"]) (.str ['u', 'l']) o1.parent (some "GenericTensor") := by
      unfold tensorProduct pyOr
      simp only
      rw [e1, e2, c1, c2, s1]
      rfl
    exact ⟨_, ht.trans hm, rfl⟩
  obtain ⟨o, ho, hoa⟩ := hp
  have hocc : OccursIn polySem o.arr symB := by
    refine ⟨[0, 0], ?_, ?_⟩
    · rw [hoa]
      exact List.Forall₂.cons (by omega) (List.Forall₂.cons (by omega) List.Forall₂.nil)
    · rw [hoa]
      show symB ∈ (MvPolynomial.X symA * MvPolynomial.X symB : MvPolynomial Sym ℚ).vars
      have : (MvPolynomial.X symA * MvPolynomial.X symB : MvPolynomial Sym ℚ)
          = MvPolynomial.monomial (Finsupp.single symA 1 + Finsupp.single symB 1) 1 := by
        simp [MvPolynomial.X, MvPolynomial.monomial_mul]
      rw [this, MvPolynomial.vars_monomial one_ne_zero]
      rw [Finsupp.mem_support_iff]
      have hab : symA ≠ symB := by decide
      simp [Finsupp.single_apply, hab]
  have hT : tensorProductV polySem Finset.toList ⟨o1, [symT], [symA]⟩ ⟨o2, [symT], [symB]⟩ none none
      = .ok ⟨o, [symT], [symA]⟩ := by
    unfold tensorProductV
    simp only [ho]
    rfl
  refine ⟨Finset.toList, _, _, _, _, _, iterOrder_toList, h1, h2, hT, hocc, ?_, ?_, ?_⟩
  · show symB ∉ [symT]; decide
  · show symB ∉ [symA]; decide
  · intro vals hvals
    show lambdifyCall _ _ _ _ _ = _
    unfold lambdifyCall
    have hargs : lambdifyArgs (⟨o, [symT], [symA]⟩ : VTensor (MvPolynomial Sym ℚ)) []
        = [symT, symA] := rfl
    rw [hargs, if_neg (by decide), if_neg (by simp [hvals]), if_pos]
    intro hsub
    have := hsub ((mem_freeSymbols polySem _ symB).mpr hocc)
    rw [List.mem_toFinset] at this
    revert this
    decide

/-- **C12** (observation).  With two different symbols of the same name the argument order does depend
on the hash order of sets: two admissible iteration orders give different variable lists. -/
theorem C12_same_name_order_refuted :
    ∃ (it it' : Finset Sym → List Sym) (fs : Finset Sym), IterOrder it ∧ IterOrder it' ∧
      computeVariables it fs [] ≠ computeVariables it' fs [] := by
  let x : Sym := ⟨"x", 0⟩
  let y : Sym := ⟨"x", 1⟩
  have hxy : x ≠ y := by decide
  have key : ∀ l : List Sym, l.Nodup → (∀ v, v ∈ l ↔ v ∈ ({x, y} : Finset Sym)) →
      IterOrder fun s => if s = {x, y} then l else s.toList := by
    intro l hl hm s
    by_cases hs : s = {x, y}
    · subst hs
      simp only [if_true]
      exact ⟨hl, hm⟩
    · simp only [if_neg hs]
      exact iterOrder_toList s
  refine ⟨fun s => if s = {x, y} then [x, y] else s.toList,
    fun s => if s = {x, y} then [y, x] else s.toList, {x, y},
    key _ (by simp [hxy]) (by simp), key _ (by simp [hxy.symm]) (by simp [or_comm]), ?_⟩
  have h1 : computeVariables (fun s => if s = {x, y} then [x, y] else s.toList) {x, y} [] = [x, y] := by
    simp [computeVariables, List.orderedInsert, x, y]
  have h2 : computeVariables (fun s => if s = {x, y} then [y, x] else s.toList) {x, y} [] = [y, x] := by
    simp [computeVariables, List.orderedInsert, x, y]
  rw [h1, h2]
  intro h
  exact hxy (List.cons.inj h).1

/-- The hypotheses of the constructor theorems hold for a concrete vector. -/
example : ∃ t, mkBaseV polySem Finset.toList (polyArr (MvPolynomial.X symA)) [symT] ['u'] none [] none
    = .ok t ∧ t.vars = [symA] := by
  obtain ⟨o, h, -⟩ := polyVec_mk symA (by decide) 'u' (Or.inl rfl)
  exact ⟨_, h, rfl⟩

end Einpy
