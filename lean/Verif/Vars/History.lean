import Mathlib.Data.ZMod.Basic
import Mathlib.Data.List.Sort
import Verif.Arrays.Props
import Verif.Vars.Props

/-!
# Histories of calls on one tensor object (symbolic/tensor.py:120-259, 393-422)
-/

namespace Einpy
open Classical

variable {α V : Type*}

/-- The mutable attributes of a tensor object that the methods below read or write
(symbolic/tensor.py:147-167, 344-371): the array, configuration, order, name, coordinate symbols and
declared variables. -/
structure TObject (α : Type*) where
  arr : Dense α
  config : Config
  order : Nat
  name : Option String
  syms : List Sym
  vars : List Sym

/-- symbolic/tensor.py:239-259 `Tensor.simplify(set_self)`: the returned array and the object after the
call.  `f` is `sympy.simplify` on one expression. -/
def TObject.simplify (f : α → α) (t : TObject α) (setSelf : Bool) : Py (Dense α × TObject α) := do
  let r ← simplifySympyArray f (.arr t.arr)
  match r with
  | .expr _ => .error .typeError
  | .arr b => if setSelf then return (b, { t with arr := b }) else return (b, t)

/-- What `tensor[index]` returns: an entry, or a sub-array when fewer indices than axes are given. -/
inductive Item (α : Type*)
  | entry (e : α)
  | sub (a : Dense α)

/-- symbolic/tensor.py:184-185 `Tensor.__getitem__`, i.e. sympy's `NDimArray.__getitem__` on a tuple of
non-negative integers: too many or out-of-range indices raise `ValueError`; missing trailing indices are
full slices.  Negative indices and explicit slices are not modelled. -/
noncomputable def TObject.getitem (t : TObject α) (idx : List Nat) : Py (Item α) :=
  let used := t.arr.shape.take idx.length
  let rest := t.arr.shape.drop idx.length
  if ¬ InRange used idx then .error .valueError
  else if rest = [] then
    match t.arr.getItem idx with
    | some e => .ok (.entry e)
    | none => .error .valueError
  else .ok (.sub ⟨rest, (t.arr.flat.drop (parseIndex used idx * rest.prod)).take rest.prod⟩)

/-- symbolic/tensor.py:393-422 `tensor_lambdify(*args)` followed by a call of the returned function
(`sympy.lambdify`: repeated names are a `SyntaxError`, a wrong number of values a `TypeError`, a symbol
that is no argument a `NameError`). -/
noncomputable def TObject.lambdify (E : ExprSem α V) (default : V) (t : TObject α) (args : List Sym)
    (vals : List V) : Py (List Sym × Dense V) :=
  let argList := if args.length = 0 then t.syms ++ t.vars else args
  if ¬ argList.Nodup then .error .syntaxError
  else if argList.length ≠ vals.length then .error .typeError
  else if ¬ (∀ e ∈ t.arr.flat, E.free e ⊆ argList.toFinset) then .error .nameError
  else .ok (argList,
    ⟨t.arr.shape, t.arr.flat.map (E.eval fun s => vals.getD (argList.idxOf s) default)⟩)

/-- One call of a method or property of a tensor object. -/
inductive TCall (V : Type*)
  | simplify (setSelf : Bool)
  | tensor
  | getitem (idx : List Nat)
  | order
  | config
  | lambdify (vals : List V)

/-- The result of a call. -/
inductive TOut (α V : Type*)
  | array (a : Dense α)
  | item (i : Item α)
  | nat (n : Nat)
  | cfg (c : Config)
  | numeric (args : List Sym) (a : Dense V)

/-- Performing one call: the result, and the object afterwards (unchanged when the call raises). -/
noncomputable def TObject.call (E : ExprSem α V) (default : V) (f : α → α) (t : TObject α) :
    TCall V → Py (TOut α V) × TObject α
  | .simplify b =>
    match t.simplify f b with
    | .ok (a, t') => (.ok (.array a), t')
    | .error e => (.error e, t)
  | .tensor => (.ok (.array t.arr), t)
  | .getitem idx => ((t.getitem idx).map .item, t)
  | .order => (.ok (.nat t.order), t)
  | .config => (.ok (.cfg t.config), t)
  | .lambdify vals => ((t.lambdify E default [] vals).map fun r => .numeric r.1 r.2, t)

/-- The object after a history of calls. -/
noncomputable def TObject.after (E : ExprSem α V) (default : V) (f : α → α) (t : TObject α) :
    List (TCall V) → TObject α
  | [] => t
  | c :: h => ((t.call E default f c).2).after E default f h

/-! ## specification -/

/-- What is assumed of `sympy.simplify`: the value of the expression is unchanged in every environment,
and no new symbols appear. -/
def SoundSimplify (E : ExprSem α V) (f : α → α) : Prop :=
  ∀ e, (∀ env, E.eval env (f e) = E.eval env e) ∧ E.free (f e) ⊆ E.free e

/-- Two arrays of the same shape whose components have the same value at every multi-index in every
environment. -/
def SameArray (E : ExprSem α V) (a b : Dense α) : Prop :=
  a.shape = b.shape ∧ ∀ idx, InRange a.shape idx → ∃ x y, a.getItem idx = some x ∧
    b.getItem idx = some y ∧ ∀ env, E.eval env x = E.eval env y

/-- Two results that mean the same. -/
def SameOut (E : ExprSem α V) : Py (TOut α V) → Py (TOut α V) → Prop
  | .ok (.array a), .ok (.array b) => SameArray E a b
  | .ok (.item (.entry x)), .ok (.item (.entry y)) => ∀ env, E.eval env x = E.eval env y
  | .ok (.item (.sub a)), .ok (.item (.sub b)) => SameArray E a b
  | .ok (.nat n), .ok (.nat m) => n = m
  | .ok (.cfg n), .ok (.cfg m) => n = m
  | .ok (.numeric l a), .ok (.numeric m b) => l = m ∧ a = b
  | .error e, .error e' => e = e'
  | _, _ => False

/-- What the constructor establishes (C07, C11, C12): the array is well formed and every symbol in it is
a coordinate or a declared variable. -/
def TObject.Constructed (E : ExprSem α V) (t : TObject α) : Prop :=
  t.arr.WF ∧ ∀ e ∈ t.arr.flat, ∀ s ∈ E.free e, s ∈ t.syms ∨ s ∈ t.vars

/-! ## lemmas -/

theorem simplify_flat (f : α → α) (a : Dense α) (ha : a.WF) :
    simplifySympyArray f (.arr a) = .ok (.arr ⟨a.shape, a.flat.map f⟩) := by
  obtain ⟨shape, flat⟩ := a
  unfold Dense.WF at ha
  unfold simplifySympyArray Dense.tolist
  cases shape with
  | nil =>
    simp at ha
    match flat, ha with
    | [e], _ => rfl
  | cons n s =>
    have := flattenList_nestOf (n :: s) flat ha
    simp only [Dense.mk', this, List.length_map]
    simp at ha
    simp [ha, bind, Except.bind]
    rfl

/-- The relation kept by a history: same data, and entries in the same position agree and have no new
symbols. -/
def Rel (E : ExprSem α V) (t u : TObject α) : Prop :=
  t.arr.shape = u.arr.shape ∧ t.config = u.config ∧ t.order = u.order ∧ t.name = u.name ∧
    t.syms = u.syms ∧ t.vars = u.vars ∧
    List.Forall₂ (fun x y => (∀ env, E.eval env x = E.eval env y) ∧ E.free x ⊆ E.free y)
      t.arr.flat u.arr.flat

theorem Rel.refl (E : ExprSem α V) (t : TObject α) : Rel E t t :=
  ⟨rfl, rfl, rfl, rfl, rfl, rfl, List.forall₂_same.mpr fun _ _ => ⟨fun _ => rfl, subset_rfl⟩⟩

theorem rel_wf {E : ExprSem α V} {t u : TObject α} (h : Rel E t u) (hu : u.arr.WF) : t.arr.WF := by
  unfold Dense.WF at *
  rw [h.2.2.2.2.2.2.length_eq, hu, h.1]

theorem rel_simplify {E : ExprSem α V} {f : α → α} (hf : SoundSimplify E f) {t u : TObject α}
    (h : Rel E t u) : Rel E { t with arr := ⟨t.arr.shape, t.arr.flat.map f⟩ } u := by
  obtain ⟨h1, h2, h3, h4, h5, h6, h7⟩ := h
  refine ⟨h1, h2, h3, h4, h5, h6, ?_⟩
  show List.Forall₂ _ (t.arr.flat.map f) u.arr.flat
  rw [List.forall₂_map_left_iff]
  exact h7.imp fun x y hxy => ⟨fun env => ((hf x).1 env).trans (hxy.1 env), ((hf x).2).trans hxy.2⟩

theorem call_simplify (E : ExprSem α V) (default : V) (f : α → α) (t : TObject α) (ht : t.arr.WF)
    (b : Bool) : t.call E default f (.simplify b)
      = (.ok (.array ⟨t.arr.shape, t.arr.flat.map f⟩),
          if b then { t with arr := ⟨t.arr.shape, t.arr.flat.map f⟩ } else t) := by
  have : t.simplify f b = .ok (⟨t.arr.shape, t.arr.flat.map f⟩,
      if b then { t with arr := ⟨t.arr.shape, t.arr.flat.map f⟩ } else t) := by
    unfold TObject.simplify
    rw [simplify_flat f t.arr ht]
    cases b <;> rfl
  simp only [TObject.call, this]

theorem rel_after (E : ExprSem α V) (default : V) {f : α → α} (hf : SoundSimplify E f)
    (u : TObject α) (hu : u.arr.WF) : ∀ (h : List (TCall V)) (t : TObject α), Rel E t u →
      Rel E (t.after E default f h) u
  | [], t, hr => hr
  | c :: h, t, hr => by
    refine rel_after E default hf u hu h _ ?_
    cases c with
    | simplify b =>
      rw [call_simplify E default f t (rel_wf hr hu)]
      cases b
      · exact hr
      · exact rel_simplify hf hr
    | _ => exact hr

theorem getItem_forall₂ {P : α → α → Prop} {s : List Nat} {l m : List α} (h : List.Forall₂ P l m)
    (hl : l.length = s.prod) (idx : List Nat) (hi : InRange s idx) :
    ∃ x y, Dense.getItem ⟨s, l⟩ idx = some x ∧ Dense.getItem ⟨s, m⟩ idx = some y ∧ P x y := by
  have hlt := parse_lt s idx hi
  have h1 : parseIndex s idx < l.length := hl ▸ hlt
  have h2 : parseIndex s idx < m.length := h.length_eq ▸ h1
  refine ⟨l[parseIndex s idx], m[parseIndex s idx], ?_, ?_, ?_⟩
  · simp [Dense.getItem, List.getElem?_eq_getElem h1]
  · simp [Dense.getItem, List.getElem?_eq_getElem h2]
  · exact h.get h1 h2

theorem sameArray_of {E : ExprSem α V} {s : List Nat} {l m : List α}
    (h : List.Forall₂ (fun x y => ∀ env, E.eval env x = E.eval env y) l m)
    (hl : l.length = s.prod) : SameArray E ⟨s, l⟩ ⟨s, m⟩ := by
  refine ⟨rfl, fun idx hi => ?_⟩
  obtain ⟨x, y, h1, h2, h3⟩ := getItem_forall₂ h hl idx hi
  exact ⟨x, y, h1, h2, h3⟩

theorem prod_take_drop (s : List Nat) (k : Nat) : (s.take k).prod * (s.drop k).prod = s.prod := by
  rw [← List.prod_append, List.take_append_drop]

theorem sub_length {s : List Nat} {l : List α} (hl : l.length = s.prod) (idx : List Nat)
    (hi : InRange (s.take idx.length) idx) :
    ((l.drop (parseIndex (s.take idx.length) idx * (s.drop idx.length).prod)).take
      (s.drop idx.length).prod).length = (s.drop idx.length).prod := by
  have hlt := parse_lt _ _ hi
  rw [List.length_take, List.length_drop, hl, ← prod_take_drop s idx.length]
  generalize (s.drop idx.length).prod = r at *
  generalize (s.take idx.length).prod = p at *
  generalize parseIndex (s.take idx.length) idx = q at *
  have : (q + 1) * r ≤ p * r := Nat.mul_le_mul_right r hlt
  have e : (q + 1) * r = q * r + r := by ring
  omega

theorem parse_append (s1 s2 i1 i2 : List Nat) (h1 : s1.length = i1.length) (h2 : s2.length = i2.length) :
    parseIndex (s1 ++ s2) (i1 ++ i2) = parseIndex s1 i1 * s2.prod + parseIndex s2 i2 := by
  unfold parseIndex
  rw [List.zip_append h1, List.foldl_append, parse_foldl s2 i2 _ h2]
  rfl

/-! ## theorems -/

/-- **C150** (histories).  Take a constructed tensor and any history of `simplify`, `tensor()`, indexing,
`order`, `config` and `tensor_lambdify` calls on it, failing calls included.  Whatever call comes next, its
result means the same as if it had been the first call on the fresh object: the same exception, the same
shape and values component by component, the same argument list and numbers for the lambdified function. -/
theorem C150_history (E : ExprSem α V) (default : V) (f : α → α) (hf : SoundSimplify E f)
    (t : TObject α) (ht : t.Constructed E) (h : List (TCall V)) (c : TCall V) :
    SameOut E ((t.after E default f h).call E default f c).1 (t.call E default f c).1 := by
  obtain ⟨hwf, hfree⟩ := ht
  have hr := rel_after E default hf t hwf h t (Rel.refl E t)
  generalize t.after E default f h = u at hr
  have huwf := rel_wf hr hwf
  obtain ⟨⟨us, ul⟩, uc, uo, un, usy, uv⟩ := u
  obtain ⟨⟨s, l⟩, tc, tor, tn, tsy, tv⟩ := t
  obtain ⟨h1, h2, h3, h4, h5, h6, h7⟩ := hr
  simp only at h1 h2 h3 h4 h5 h6 h7 hwf hfree
  subst h1 h2 h3 h4 h5 h6
  unfold Dense.WF at hwf huwf
  simp only at hwf huwf
  cases c with
  | simplify b =>
    rw [call_simplify E default f ⟨⟨us, ul⟩, uc, uo, un, usy, uv⟩ huwf,
      call_simplify E default f ⟨⟨us, l⟩, uc, uo, un, usy, uv⟩ hwf]
    refine sameArray_of ?_ (by simpa using huwf)
    rw [List.forall₂_map_left_iff, List.forall₂_map_right_iff]
    exact h7.imp fun x y k env => by rw [(hf x).1, (hf y).1, k.1]
  | tensor => exact sameArray_of (h7.imp fun _ _ k => k.1) huwf
  | getitem idx =>
    simp only [TObject.call, TObject.getitem]
    by_cases hi : InRange (us.take idx.length) idx
    · by_cases hre : us.drop idx.length = []
      · have hi' : InRange us idx := by
          have : us.take idx.length = us := by
            have := List.take_append_drop idx.length us
            rwa [hre, List.append_nil] at this
          rwa [this] at hi
        obtain ⟨x, y, k1, k2, k3⟩ := getItem_forall₂ h7 huwf idx hi'
        simp only [hi, hre, k1, k2, not_true_eq_false, if_false, if_true, Except.map]
        exact k3.1
      · simp only [hi, hre, not_true_eq_false, if_false, Except.map]
        refine sameArray_of ?_ (sub_length huwf idx hi)
        exact List.forall₂_take _ (List.forall₂_drop _ (h7.imp fun _ _ k => k.1))
    · simp only [hi, not_false_eq_true, if_true, Except.map]
      rfl
  | order => rfl
  | config => rfl
  | lambdify vals =>
    simp only [TObject.call, TObject.lambdify, List.length_nil, if_true]
    by_cases hn : (usy ++ uv).Nodup
    swap
    · simp only [hn, not_false_eq_true, if_true, Except.map]; rfl
    by_cases hl : (usy ++ uv).length = vals.length
    swap
    · simp only [hn, hl, not_true_eq_false, if_false, ne_eq, not_false_eq_true, if_true, Except.map]; rfl
    have hft : ∀ e ∈ l, E.free e ⊆ (usy ++ uv).toFinset := by
      intro e he s hs
      simpa using hfree e he s hs
    have hfu : ∀ e ∈ ul, E.free e ⊆ (usy ++ uv).toFinset := by
      intro e he
      obtain ⟨i, hi, rfl⟩ := List.getElem_of_mem he
      have hi' : i < l.length := h7.length_eq ▸ hi
      exact (h7.get hi hi').2.trans (hft _ (List.getElem_mem hi'))
    rw [if_neg (not_not.mpr hn), if_neg (not_not.mpr hl), if_neg (not_not.mpr hfu),
      if_neg (not_not.mpr hn), if_neg (not_not.mpr hl), if_neg (not_not.mpr hft)]
    have key : ∀ φ : Sym → V, ul.map (E.eval φ) = l.map (E.eval φ) := by
      intro φ
      refine List.ext_getElem (by rw [List.length_map, List.length_map, h7.length_eq]) ?_
      intro i hi hi'
      rw [List.getElem_map, List.getElem_map]
      exact (h7.get (by rwa [List.length_map] at hi) (by rwa [List.length_map] at hi')).1 _
    rw [key]
    exact ⟨rfl, rfl⟩

/-- **C150** (`tensor_lambdify` with explicit arguments).  On a constructed tensor and after any history of calls: if the arguments are distinct and include every
symbol of the tensor, and the right number of values is given, the returned argument list is the one given, and the numbers are the values of the components
under every assignment that gives each argument its value.  If the call succeeds on the fresh object it returns the same after the history. -/
theorem C150_lambdify_args (E : ExprSem α V) (default : V) (f : α → α) (hf : SoundSimplify E f)
    (t : TObject α) (ht : t.Constructed E) (h : List (TCall V)) (args : List Sym) (hargs : args ≠ []) (vals : List V) :
    (∀ r, t.lambdify E default args vals = .ok r → (t.after E default f h).lambdify E default args vals = .ok r) ∧
    (args.Nodup → args.length = vals.length → (∀ e ∈ t.arr.flat, ∀ s ∈ E.free e, s ∈ args) →
      ∃ a : Dense V, (t.after E default f h).lambdify E default args vals = .ok (args, a) ∧ a.shape = t.arr.shape ∧
        ∀ env : Sym → V, (∀ i (hi : i < args.length) (hi' : i < vals.length), env args[i] = vals[i]) →
          ∀ idx, InRange t.arr.shape idx → ∃ x, t.arr.getItem idx = some x ∧ a.getItem idx = some (E.eval env x)) := by
  have hlen : args.length ≠ 0 := fun e => hargs (List.length_eq_zero_iff.mp e)
  obtain ⟨hwf, -⟩ := ht
  have hr := rel_after E default hf t hwf h t (Rel.refl E t)
  generalize t.after E default f h = u at hr
  obtain ⟨⟨us, ul⟩, uc, uo, un, usy, uv⟩ := u
  obtain ⟨⟨s, l⟩, tc, tor, tn, tsy, tv⟩ := t
  obtain ⟨h1, h2, h3, h4, h5, h6, h7⟩ := hr
  simp only at h1 h2 h3 h4 h5 h6 h7 hwf
  subst h1 h2 h3 h4 h5 h6
  unfold Dense.WF at hwf
  simp only at hwf
  have key : ∀ φ : Sym → V, ul.map (E.eval φ) = l.map (E.eval φ) := by
    intro φ
    refine List.ext_getElem (by rw [List.length_map, List.length_map, h7.length_eq]) ?_
    intro i hi hi'
    rw [List.getElem_map, List.getElem_map]
    exact (h7.get (by rwa [List.length_map] at hi) (by rwa [List.length_map] at hi')).1 _
  have main : (∀ e ∈ l, E.free e ⊆ args.toFinset) → ∀ e ∈ ul, E.free e ⊆ args.toFinset := by
    intro hft e he
    obtain ⟨i, hi, rfl⟩ := List.getElem_of_mem he
    have hi' : i < l.length := h7.length_eq ▸ hi
    exact (h7.get hi hi').2.trans (hft _ (List.getElem_mem hi'))
  refine ⟨fun r hok => ?_, fun hn hl hfr => ?_⟩
  · simp only [TObject.lambdify, if_neg hlen] at hok ⊢
    by_cases hn : args.Nodup
    swap
    · rw [if_pos hn] at hok; cases hok
    by_cases hl : args.length = vals.length
    swap
    · rw [if_neg (not_not.mpr hn), if_pos hl] at hok; cases hok
    by_cases hft : ∀ e ∈ l, E.free e ⊆ args.toFinset
    swap
    · rw [if_neg (not_not.mpr hn), if_neg (not_not.mpr hl), if_pos hft] at hok; cases hok
    rw [if_neg (not_not.mpr hn), if_neg (not_not.mpr hl), if_neg (not_not.mpr hft)] at hok
    rw [if_neg (not_not.mpr hn), if_neg (not_not.mpr hl), if_neg (not_not.mpr (main hft)), key]
    exact hok
  · have hft : ∀ e ∈ l, E.free e ⊆ args.toFinset := fun e he s hs => by simpa using hfr e he s hs
    simp only [TObject.lambdify, if_neg hlen]
    rw [if_neg (not_not.mpr hn), if_neg (not_not.mpr hl), if_neg (not_not.mpr (main hft)), key]
    refine ⟨_, rfl, rfl, fun env henv idx hidx => ?_⟩
    have hlt : parseIndex us idx < l.length := hwf ▸ parse_lt us idx hidx
    refine ⟨l[parseIndex us idx], by simp [Dense.getItem, List.getElem?_eq_getElem hlt], ?_⟩
    simp only [Dense.getItem, List.getElem?_map, List.getElem?_eq_getElem hlt, Option.map_some]
    congr 1
    refine E.congr _ _ _ fun s hs => ?_
    have hs' : s ∈ args := by simpa using hft _ (List.getElem_mem hlt) hs
    have hi : args.idxOf s < args.length := List.idxOf_lt_length_iff.mpr hs'
    have hi' : args.idxOf s < vals.length := hl ▸ hi
    have e := henv _ hi hi'
    rw [List.getElem_idxOf] at e
    rw [e]
    simp [List.getD, List.getElem?_eq_getElem hi']

/-- **C150** (refused `tensor_lambdify` calls).  Whatever the tensor: two equal names among the arguments raise `SyntaxError`; otherwise a wrong number of values
raises `TypeError`; otherwise a symbol of the tensor that is no argument raises `NameError`.  Without explicit arguments these are the coordinates followed by
the declared variables. -/
theorem C150_lambdify_errors (E : ExprSem α V) (default : V) (t : TObject α) (args : List Sym) (vals : List V) :
    (¬ args.Nodup → t.lambdify E default args vals = .error .syntaxError) ∧
    (args ≠ [] → args.Nodup → args.length ≠ vals.length → t.lambdify E default args vals = .error .typeError) ∧
    (args ≠ [] → args.Nodup → args.length = vals.length → (∃ e ∈ t.arr.flat, ∃ s ∈ E.free e, s ∉ args) → t.lambdify E default args vals = .error .nameError) ∧
    (t.syms ++ t.vars ≠ [] → t.lambdify E default [] vals = t.lambdify E default (t.syms ++ t.vars) vals) := by
  have hl : ∀ {l : List Sym}, l ≠ [] → l.length ≠ 0 := fun h e => h (List.length_eq_zero_iff.mp e)
  refine ⟨fun hn => ?_, fun h0 hn h1 => ?_, fun h0 hn h1 ⟨e, he, s, hs, hno⟩ => ?_, fun h0 => ?_⟩
  · have h0 : args ≠ [] := fun e => hn (e ▸ List.nodup_nil)
    simp only [TObject.lambdify, if_neg (hl h0), if_pos hn]
  · simp only [TObject.lambdify, if_neg (hl h0), if_neg (not_not.mpr hn), if_pos h1]
  · have : ¬ ∀ e ∈ t.arr.flat, E.free e ⊆ args.toFinset := fun h => hno (by simpa using h e he hs)
    simp only [TObject.lambdify, if_neg (hl h0), if_neg (not_not.mpr hn), if_neg (not_not.mpr h1), if_pos this]
  · simp only [TObject.lambdify, if_neg (hl h0), List.length_nil, if_true]

/-- **C150** (what `simplify` does).  On a constructed tensor `simplify()` and `simplify(set_self=False)`
return the same array: same shape, every component the simplification of the component that was there.
The first stores exactly this array in the object, the second leaves the object as it was, and neither
touches order, configuration, name, coordinates or declared variables. -/
theorem C150_simplify_effect (f : α → α) (t : TObject α) (ht : t.arr.WF) :
    ∃ b : Dense α, t.simplify f false = .ok (b, t) ∧ t.simplify f true = .ok (b, { t with arr := b }) ∧
      b.shape = t.arr.shape ∧ b.WF ∧ ∀ idx, InRange t.arr.shape idx →
        ∃ x, t.arr.getItem idx = some x ∧ b.getItem idx = some (f x) := by
  obtain ⟨b, h1, h2, h3, h4⟩ := C11_simplify_componentwise f t.arr ht
  refine ⟨b, ?_, ?_, h2, h3, h4⟩ <;> (unfold TObject.simplify; rw [h1]; rfl)

/-- Every way of giving a tuple of non-negative indices to a constructed tensor: all indices present give
the component, fewer give the sub-array of the components that start with them, too many or out-of-range
indices raise `ValueError`. -/
theorem C150_getitem (t : TObject α) (ht : t.arr.WF) (idx : List Nat) :
    (InRange t.arr.shape idx → ∃ x, t.arr.getItem idx = some x ∧ t.getitem idx = .ok (.entry x)) ∧
    (idx.length < t.arr.shape.length → InRange (t.arr.shape.take idx.length) idx →
      ∃ b : Dense α, t.getitem idx = .ok (.sub b) ∧ b.WF ∧ b.shape = t.arr.shape.drop idx.length ∧
        ∀ more, InRange b.shape more → b.getItem more = t.arr.getItem (idx ++ more)) ∧
    (¬ InRange (t.arr.shape.take idx.length) idx → t.getitem idx = .error .valueError) := by
  obtain ⟨⟨s, l⟩, tc, tor, tn, tsy, tv⟩ := t
  unfold Dense.WF at ht
  simp only at ht
  simp only [TObject.getitem]
  refine ⟨fun hi => ?_, fun hlen hi => ?_, fun hi => by rw [if_pos hi]⟩
  · have hle : s.length = idx.length := hi.length_eq
    have h1 : s.take idx.length = s := by rw [← hle, List.take_length]
    have h2 : s.drop idx.length = [] := by rw [← hle, List.drop_length]
    have hlt : parseIndex s idx < l.length := ht ▸ parse_lt s idx hi
    refine ⟨l[parseIndex s idx], by simp [Dense.getItem, List.getElem?_eq_getElem hlt], ?_⟩
    rw [h1, h2, if_neg (not_not.mpr hi), if_pos rfl]
    simp [Dense.getItem, List.getElem?_eq_getElem hlt]
  · have hne : s.drop idx.length ≠ [] := by
      intro h
      have := congrArg List.length h
      simp at this
      omega
    rw [if_neg (not_not.mpr hi), if_neg hne]
    refine ⟨_, rfl, sub_length ht idx hi, rfl, fun more hm => ?_⟩
    have hp := parse_append (s.take idx.length) (s.drop idx.length) idx more hi.length_eq hm.length_eq
    rw [List.take_append_drop] at hp
    have hlt := parse_lt _ _ hm
    simp only at hlt
    simp only [Dense.getItem, hp]
    rw [List.getElem?_take_of_lt hlt, List.getElem?_drop]

/-! ## concrete instance -/

/-- Boolean polynomials: expressions over 𝔽₂ with values in 𝔽₂. -/
noncomputable def boolSem : ExprSem (MvPolynomial Sym (ZMod 2)) (ZMod 2) where
  free p := p.vars
  eval env p := MvPolynomial.eval env p
  congr e1 e2 p h := by
    refine MvPolynomial.hom_congr_vars (by ext; simp) ?_ rfl
    intro i hi _
    simpa using h i hi

/-- The expression `a² + a`, which is zero for every value of `a` in 𝔽₂. -/
noncomputable def boolExpr : MvPolynomial Sym (ZMod 2) :=
  MvPolynomial.X symA ^ 2 + MvPolynomial.X symA

/-- A simplifier that recognises `a² + a = 0` and nothing else. -/
noncomputable def boolSimp (p : MvPolynomial Sym (ZMod 2)) : MvPolynomial Sym (ZMod 2) :=
  if p = boolExpr then 0 else p

theorem boolSimp_sound : SoundSimplify boolSem boolSimp := by
  intro e
  unfold boolSimp
  by_cases h : e = boolExpr
  · rw [if_pos h]
    refine ⟨fun env => ?_, by simp [boolSem]⟩
    subst h
    simp only [boolSem, boolExpr, map_zero, map_add, map_pow, MvPolynomial.eval_X]
    generalize env symA = v
    revert v
    decide
  · rw [if_neg h]
    exact ⟨fun _ => rfl, subset_rfl⟩

/-- The tensor `[a² + a, t]` of rank one with coordinate `t`. -/
noncomputable def boolTensor : TObject (MvPolynomial Sym (ZMod 2)) :=
  ⟨⟨[2], [boolExpr, MvPolynomial.X symT]⟩, ['u'], 1, none, [symT], [symA]⟩

theorem boolExpr_vars : boolExpr.vars ⊆ {symA} := by
  unfold boolExpr
  refine (MvPolynomial.vars_add_subset _ _).trans (Finset.union_subset ?_ ?_)
  · exact (MvPolynomial.vars_pow _ _).trans (by rw [MvPolynomial.vars_X])
  · rw [MvPolynomial.vars_X]

theorem boolTensor_constructed : boolTensor.Constructed boolSem := by
  refine ⟨by simp [Dense.WF, boolTensor], ?_⟩
  intro e he s hs
  simp only [boolTensor, List.mem_cons, List.not_mem_nil, or_false] at he
  rcases he with rfl | rfl
  · right
    have := boolExpr_vars hs
    simpa [boolTensor] using this
  · left
    simp only [boolSem, MvPolynomial.vars_X, Finset.mem_singleton] at hs
    simp [boolTensor, hs]

/-- Non-vacuity: after a history that simplifies twice and fails once, the lambdified function still takes
the arguments it took before. -/
example (vals : List (ZMod 2)) :
    SameOut boolSem
      ((boolTensor.after boolSem 0 boolSimp
        [.simplify true, .getitem [7], .simplify false, .tensor]).call boolSem 0 boolSimp
          (.lambdify vals)).1
      (boolTensor.call boolSem 0 boolSimp (.lambdify vals)).1 :=
  C150_history boolSem 0 boolSimp boolSimp_sound boolTensor boolTensor_constructed _ _

/-- Non-vacuity: a repeated argument and too many values. -/
example (x y : ZMod 2) : boolTensor.lambdify boolSem 0 [symA, symA] [x, y] = .error .syntaxError ∧
    boolTensor.lambdify boolSem 0 [symA] [x, y] = .error .typeError :=
  ⟨(C150_lambdify_errors boolSem 0 boolTensor [symA, symA] [x, y]).1 (by simp), (C150_lambdify_errors boolSem 0 boolTensor [symA] [x, y]).2.1 (by simp) (by simp) (by simp)⟩

/-- Non-vacuity: the arguments in the other order, after a simplification. -/
example (x y : ZMod 2) : ∃ a : Dense (ZMod 2), (boolTensor.after boolSem 0 boolSimp [.simplify true]).lambdify boolSem 0 (boolTensor.vars ++ boolTensor.syms) [x, y] =
    .ok (boolTensor.vars ++ boolTensor.syms, a) :=
  have h := (C150_lambdify_args boolSem 0 boolSimp boolSimp_sound boolTensor boolTensor_constructed [.simplify true] (boolTensor.vars ++ boolTensor.syms)
    (by simp [boolTensor]) [x, y]).2 (by simp [boolTensor, symA, symT]) (by simp [boolTensor]) (fun e he s hs => by
      have := boolTensor_constructed.2 e he s hs
      simpa [or_comm] using this)
  h.imp fun _ k => k.1

/-- **C150** (limit of the claim).  `variables` is not recomputed: after `simplify()` a declared variable
may occur in no component any more, so the list is then a superset of the free symbols, not the exact
list. -/
theorem C150_variables_go_stale :
    ∃ (t : TObject (MvPolynomial Sym (ZMod 2))) (f : MvPolynomial Sym (ZMod 2) → _),
      SoundSimplify boolSem f ∧ t.Constructed boolSem ∧
      (∀ s ∈ t.vars, ∃ e ∈ t.arr.flat, s ∈ boolSem.free e) ∧
      ∃ s ∈ (t.after boolSem 0 f [.simplify true]).vars,
        ∀ e ∈ (t.after boolSem 0 f [.simplify true]).arr.flat, s ∉ boolSem.free e := by
  refine ⟨boolTensor, boolSimp, boolSimp_sound, boolTensor_constructed, ?_, symA, ?_, ?_⟩
  · intro s hs
    simp only [boolTensor, List.mem_singleton] at hs
    subst hs
    refine ⟨boolExpr, by simp [boolTensor], ?_⟩
    by_contra hno
    have hv : boolExpr.vars = ∅ := by
      refine Finset.eq_empty_of_forall_notMem fun s hs => ?_
      have := boolExpr_vars hs
      rw [Finset.mem_singleton] at this
      exact hno (this ▸ hs)
    rw [MvPolynomial.vars_eq_empty_iff_eq_C] at hv
    have := congrArg (MvPolynomial.coeff (Finsupp.single symA 1)) hv
    simp [boolExpr, MvPolynomial.coeff_X_pow, Finsupp.single_eq_single_iff] at this
  · simp only [TObject.after]
    rw [call_simplify _ _ _ _ boolTensor_constructed.1]
    simp [boolTensor]
  · intro e he
    simp only [TObject.after] at he
    rw [call_simplify _ _ _ _ boolTensor_constructed.1] at he
    have hne : (MvPolynomial.X symT : MvPolynomial Sym (ZMod 2)) ≠ boolExpr := by
      intro h
      have : symT ∈ boolExpr.vars := by rw [← h, MvPolynomial.vars_X]; simp
      have := boolExpr_vars this
      simp [symT, symA] at this
    simp only [boolTensor, if_true, List.map_cons, List.map_nil, boolSimp, if_neg hne, List.mem_cons,
      List.not_mem_nil, or_false] at he
    rcases he with rfl | rfl
    · simp [boolSem]
    · simp [boolSem, MvPolynomial.vars_X, symT, symA]

end Einpy
