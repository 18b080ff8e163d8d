import Verif.Arrays.Model
import Mathlib.Tactic.Ring

/-!
# Property C11: simplification never moves or drops components
-/

namespace Einpy
variable {α β : Type*}

/-! ## specification -/

/-- `idx` is a valid multi-index for `shape`. -/
def InRange (shape idx : List Nat) : Prop := List.Forall₂ (fun n i => i < n) shape idx

/-- Python indexing `l[i][j]…[k]` of a nested list down to a leaf. -/
def Nest.lookup : List (Nest α) → List Nat → Option α
  | l, [i] => match l[i]? with
    | some (.leaf a) => some a
    | _ => none
  | l, i :: is => match l[i]? with
    | some (.node l') => Nest.lookup l' is
    | _ => none
  | _, [] => none

/-! ## lemmas -/

theorem flattenList_leaf (l : List α) : flattenList (l.map .leaf) = l := by
  induction l with
  | nil => simp [flattenList]
  | cons a l ih => simp [flattenList, ih]

theorem flattenList_node (l : List (List (Nest α))) :
    flattenList (l.map .node) = (l.map flattenList).flatten := by
  induction l with
  | nil => simp [flattenList]
  | cons a l ih => simp [flattenList, ih]

theorem chunks_flatten (fl : List α) (k : Nat) : ∀ n, n * k ≤ fl.length →
    ((List.range n).map fun e => (fl.drop (e * k)).take k).flatten = fl.take (n * k) := by
  intro n
  induction n with
  | zero => intro _; simp
  | succ n ih =>
    intro h
    have h' : n * k + k ≤ fl.length := by rw [Nat.succ_mul] at h; exact h
    rw [List.range_succ, List.map_append, List.flatten_append, ih (by omega), Nat.succ_mul]
    simp [List.take_add]

theorem nestOf_cons (n m : Nat) (s : List Nat) (fl : List α) :
    nestOf (n :: m :: s) fl = (List.range n).map fun e =>
      .node (nestOf (m :: s) ((fl.drop (e * (m :: s).prod)).take (m :: s).prod)) := by
  rw [nestOf]; simp

theorem flattenList_nestOf : ∀ (shape : List Nat) (fl : List α), fl.length = shape.prod →
    flattenList (nestOf shape fl) = fl := by
  intro shape
  induction shape with
  | nil => intro fl _; simp [nestOf, flattenList_leaf]
  | cons n s ih =>
    intro fl h
    cases s with
    | nil => simp [nestOf, flattenList_leaf]
    | cons m s =>
      rw [nestOf_cons]
      have e : ((List.range n).map fun e => Nest.node
          (nestOf (m :: s) ((fl.drop (e * (m :: s).prod)).take (m :: s).prod)))
          = ((List.range n).map fun e =>
          (nestOf (m :: s) ((fl.drop (e * (m :: s).prod)).take (m :: s).prod))).map .node := by
        simp [List.map_map, Function.comp_def]
      rw [e, flattenList_node, List.map_map]
      rw [List.prod_cons] at h
      have : (List.range n).map (flattenList ∘ fun e =>
          nestOf (m :: s) ((fl.drop (e * (m :: s).prod)).take (m :: s).prod))
          = (List.range n).map fun e => (fl.drop (e * (m :: s).prod)).take (m :: s).prod := by
        apply List.map_congr_left
        intro e he
        rw [List.mem_range] at he
        simp only [Function.comp]
        apply ih
        rw [List.length_take, List.length_drop]
        have : (e + 1) * (m :: s).prod ≤ n * (m :: s).prod := Nat.mul_le_mul_right _ he
        rw [Nat.succ_mul] at this
        omega
      rw [this, chunks_flatten _ _ _ (by omega), ← h, List.take_length]

theorem parse_foldl (shape : List Nat) : ∀ (idx : List Nat) (acc : Nat), shape.length = idx.length →
    (shape.zip idx).foldl (fun acc p => acc * p.1 + p.2) acc
      = acc * shape.prod + parseIndex shape idx := by
  unfold parseIndex
  induction shape with
  | nil => intro idx acc h; simp
  | cons n s ih =>
    intro idx acc h
    cases idx with
    | nil => simp at h
    | cons i is =>
      have h' : s.length = is.length := by simpa using h
      simp only [List.zip_cons_cons, List.foldl_cons, List.prod_cons]
      rw [ih is (acc * n + i) h', ih is (0 * n + i) h']
      ring

theorem parse_cons (n i : Nat) (s is : List Nat) (h : s.length = is.length) :
    parseIndex (n :: s) (i :: is) = i * s.prod + parseIndex s is := by
  have := parse_foldl s is i h
  unfold parseIndex at this ⊢
  simp only [List.zip_cons_cons, List.foldl_cons, zero_mul, zero_add]
  exact this

theorem parse_lt : ∀ (shape idx : List Nat), InRange shape idx →
    parseIndex shape idx < shape.prod := by
  intro shape idx h
  induction h with
  | nil => simp [parseIndex]
  | @cons n i s is hi hrest ih =>
    rw [parse_cons _ _ _ _ hrest.length_eq, List.prod_cons]
    have : (i + 1) * s.prod ≤ n * s.prod := Nat.mul_le_mul_right _ hi
    rw [Nat.succ_mul] at this
    omega

theorem lookup_nestOf : ∀ (shape : List Nat) (fl : List α) (idx : List Nat), shape ≠ [] →
    fl.length = shape.prod → InRange shape idx →
    Nest.lookup (nestOf shape fl) idx = fl[parseIndex shape idx]? := by
  intro shape
  induction shape with
  | nil => intro fl idx h; exact absurd rfl h
  | cons n s ih =>
    intro fl idx _ hl hr
    cases hr with
    | @cons _ i _ is hi hrest =>
      cases s with
      | nil =>
        cases hrest
        have : i < fl.length := by simpa [hl] using hi
        simp [nestOf, Nest.lookup, parseIndex, List.getElem?_eq_getElem this]
      | cons m s =>
        cases hrest with
        | @cons _ j _ js hj hrest' =>
        have hr' : InRange (m :: s) (j :: js) := List.Forall₂.cons hj hrest'
        rw [parse_cons _ _ _ _ hr'.length_eq, nestOf_cons]
        rw [Nest.lookup]
        · have hi' : i < (List.range n).length := by simpa using hi
          simp only [List.getElem?_map, List.getElem?_range hi, Option.map_some]
          rw [List.prod_cons] at hl
          have hle : (i + 1) * (m :: s).prod ≤ n * (m :: s).prod := Nat.mul_le_mul_right _ hi
          rw [Nat.succ_mul] at hle
          rw [ih _ _ (by simp) (by rw [List.length_take, List.length_drop]; omega) hr']
          have hlt := parse_lt _ _ hr'
          rw [List.getElem?_take_of_lt hlt, List.getElem?_drop]
        · simp

/-! ## theorems -/

/-- Reading a component through `tolist()` (Python `l[i][j]…`) is reading it from the array; this
ties the model of dense arrays to what the user sees. -/
theorem C11_tolist_components (a : Dense α) (ha : a.WF) (hr : a.shape ≠ []) (idx : List Nat)
    (hi : InRange a.shape idx) :
    ∃ l, a.tolist = .ok l ∧ ∃ x, Nest.lookup l idx = some x ∧ a.getItem idx = some x := by
  have hlt : parseIndex a.shape idx < a.flat.length := by rw [ha]; exact parse_lt _ _ hi
  refine ⟨nestOf a.shape a.flat, ?_, a.flat[parseIndex a.shape idx], ?_, ?_⟩
  · unfold Dense.tolist
    split
    · contradiction
    · rfl
  · rw [lookup_nestOf _ _ _ hr ha hi, List.getElem?_eq_getElem hlt]
  · rw [Dense.getItem, List.getElem?_eq_getElem hlt]

/-- **C11.** For every array (any rank, any axis lengths) `simplify_sympy_array` succeeds, keeps the
shape, and the component at every multi-index is the simplification of the component that was there;
an expression is simplified itself. -/
theorem C11_simplify_componentwise (f : α → α) (a : Dense α) (ha : a.WF) :
    ∃ b : Dense α, simplifySympyArray f (.arr a) = .ok (.arr b) ∧ b.shape = a.shape ∧ b.WF ∧
      ∀ idx, InRange a.shape idx → ∃ x, a.getItem idx = some x ∧ b.getItem idx = some (f x) := by
  obtain ⟨shape, flat⟩ := a
  have ha' : flat.length = shape.prod := ha
  have comp : ∀ idx, InRange shape idx → ∃ x, (⟨shape, flat⟩ : Dense α).getItem idx = some x ∧
      (⟨shape, flat.map f⟩ : Dense α).getItem idx = some (f x) := by
    intro idx hi
    have hlt : parseIndex shape idx < flat.length := by rw [ha']; exact parse_lt _ _ hi
    refine ⟨flat[parseIndex shape idx], by simp [Dense.getItem, hlt], by simp [Dense.getItem, hlt]⟩
  refine ⟨⟨shape, flat.map f⟩, ?_, rfl, by simp [Dense.WF, ha'], comp⟩
  unfold simplifySympyArray Dense.tolist
  cases shape with
  | nil =>
    simp only
    match flat, ha' with
    | [e], _ => rfl
  | cons n s =>
    simp only [flattenList_nestOf _ _ ha', Dense.mk', List.length_map, ha', if_true]
    rfl

theorem C11_simplify_expr (f : α → α) (e : α) :
    simplifySympyArray f (.expr e) = .ok (.expr (f e)) := rfl

/-- A concrete 2 × 3 array meets the hypotheses. -/
example : (⟨[2, 3], [1, 2, 3, 4, 5, 6]⟩ : Dense Nat).WF ∧ InRange [2, 3] [1, 2] ∧
    (⟨[2, 3], [1, 2, 3, 4, 5, 6]⟩ : Dense Nat).getItem [1, 2] = some 6 := by
  refine ⟨rfl, ?_, rfl⟩
  exact List.Forall₂.cons (by omega) (List.Forall₂.cons (by omega) List.Forall₂.nil)

end Einpy
