import Verif.Coord.ObjProps2

/-!
# C100: `Body` (bodies.py)
-/

namespace Einpy.Coord

variable (k : Num.PhysConst)

/-- Physical dimensions in the signature of `check_units` (bodies.py:71-73). -/
inductive BodyDim
  | mass | charge | length | other
  deriving DecidableEq

/-- An astropy quantity with one of these dimensions: a number and the size of its unit. -/
structure BodyQty where
  value : ℝ
  scale : ℝ
  dim : BodyDim

/-- What is passed as `coords`: nothing, a differential object, or another object (the annotation is not enforced). -/
inductive BodyCoords
  | none
  | diff (o : DiffObj)
  | foreign

/-- A `Body` object.  `posVec` and `velVec` are the attributes `pos_vec`, `vel_vec`, which need not exist.  `__str__` is not modelled. -/
structure Body where
  name : String
  mass : BodyQty
  q : BodyQty
  R : BodyQty
  coords : BodyCoords
  parent : Option Body
  posVec : Option (List Qty)
  velVec : Option (List Qty)

/-- bodies.py:77-85: the lists of positions and velocities `__post_init__` stores, if any. -/
def BodyCoords.vecs : BodyCoords → Option (List Qty × List Qty)
  | .none => Option.none
  | .diff o => match o.sys with
    | .cart => some ([o.a, o.b, o.c], [o.v1, o.v2, o.v3])
    | .sph => some ([o.a, o.b, o.c], [o.v1, o.v2, o.v3])
    | .bl => some ([o.a, o.b, o.c], [o.v1, o.v2, o.v3])
  | .foreign => Option.none

/-- bodies.py:62-69: the constructor of the dataclass, bodies.py:71-85: `__post_init__`.  `u.quantity_input` raises `UnitsError` (a `ValueError`)
for a wrong dimension. -/
def Body.new (name : String) (mass q R : BodyQty) (coords : BodyCoords) (parent : Option Body) : Py Body :=
  if mass.dim ≠ .mass then .error .valueError
  else if q.dim ≠ .charge then .error .valueError
  else if R.dim ≠ .length then .error .valueError
  else .ok ⟨name, mass, q, R, coords, parent, coords.vecs.map Prod.fst, coords.vecs.map Prod.snd⟩

/-- Assignment to the attribute `coords` of an existing body. -/
def Body.setCoords (b : Body) (c : BodyCoords) : Body := { b with coords := c }

/-- The chain of parents, the body itself first. -/
def Body.ancestors (b : Body) : List Body :=
  b :: match _h : b.parent with
    | .none => []
    | some p => p.ancestors
termination_by b
decreasing_by
  cases b
  simp only at _h
  subst _h
  simp only [Body.mk.sizeOf_spec, Option.some.sizeOf_spec]
  omega

/-- `pos_vec` and `vel_vec` are the spatial parts of `coords.position()` and of `coords.velocity(metric)` (for every metric that accepts the
coordinates), as numbers in SI units. -/
def Body.Consistent (b : Body) : Prop :=
  ∀ o, b.coords = .diff o →
    (∃ p, b.posVec = some p ∧ p.map Qty.si = [o.position k 1, o.position k 2, o.position k 3]) ∧
    ∃ v, b.velVec = some v ∧ ∀ m u, (o.velocity k m).1 = .ok u → v.map Qty.si = [u 1, u 2, u 3]

theorem velocity_space {o : DiffObj} {m : MetricObj} {u : Num.Vec4} (h : (o.velocity k m).1 = .ok u) :
    u 1 = o.v1.si ∧ u 2 = o.v2.si ∧ u 3 = o.v3.si := by
  have hv : ∀ x o', o.setVt k m = (.ok x, o') → o'.v1 = o.v1 ∧ o'.v2 = o.v2 ∧ o'.v3 = o.v3 := by
    intro x o' hs
    unfold DiffObj.setVt at hs
    split_ifs at hs
    · cases hs
    dsimp only at hs
    split at hs <;> cases hs
    exact ⟨rfl, rfl, rfl⟩
  unfold DiffObj.velocity at h
  split at h
  · rename_i x o' hs
    cases h
    obtain ⟨h1, h2, h3⟩ := hv x o' hs
    rw [← h1, ← h2, ← h3]
    exact ⟨rfl, rfl, rfl⟩
  · cases h

/-- **C100.** A body is made exactly if mass, charge and radius have the dimensions of a mass, a charge and a length; otherwise ValueError is raised.
All arguments are kept as they were given, units included. -/
theorem C100_construct (name : String) (mass q R : BodyQty) (coords : BodyCoords) (parent : Option Body) :
    ((∃ b, Body.new name mass q R coords parent = .ok b) ↔ mass.dim = .mass ∧ q.dim = .charge ∧ R.dim = .length) ∧
    (∀ e, Body.new name mass q R coords parent = .error e → e = .valueError) ∧
    ∀ b, Body.new name mass q R coords parent = .ok b → b.name = name ∧ b.mass = mass ∧ b.q = q ∧ b.R = R ∧ b.coords = coords ∧
      b.parent = parent ∧ (b.posVec.isSome ↔ ∃ o, coords = .diff o) ∧ (b.velVec.isSome ↔ ∃ o, coords = .diff o) := by
  have hv : ∀ c : BodyCoords, (c.vecs.isSome ↔ ∃ o, c = .diff o) := by
    intro c
    rcases c with _ | o | _
    · simp [BodyCoords.vecs]
    · rcases h' : o.sys with _ | _ | _ <;> simp [BodyCoords.vecs, h']
    · simp [BodyCoords.vecs]
  unfold Body.new
  by_cases h1 : mass.dim = .mass
  · by_cases h2 : q.dim = .charge
    · by_cases h3 : R.dim = .length
      · rw [if_neg (not_not.2 h1), if_neg (not_not.2 h2), if_neg (not_not.2 h3)]
        refine ⟨⟨fun _ => ⟨h1, h2, h3⟩, fun _ => ⟨_, rfl⟩⟩, fun e h => (by cases h), ?_⟩
        intro b h
        cases h
        refine ⟨rfl, rfl, rfl, rfl, rfl, rfl, ?_, ?_⟩ <;> rw [← hv] <;> simp
      · simp [h1, h2, h3]
    · simp [h1, h2]
  · simp [h1]

theorem vecs_diff (o : DiffObj) : (BodyCoords.diff o).vecs = some ([o.a, o.b, o.c], [o.v1, o.v2, o.v3]) := by
  rcases h' : o.sys with _ | _ | _ <;> simp [BodyCoords.vecs, h']

/-- **C100 (freshly made bodies)**: `pos_vec` and `vel_vec` are the position and the velocity of the coordinates. -/
theorem C100_consistent_partial {name : String} {mass q R : BodyQty} {coords : BodyCoords} {parent : Option Body} {b : Body}
    (h : Body.new name mass q R coords parent = .ok b) : b.Consistent k := by
  unfold Body.new at h
  split_ifs at h
  cases h
  intro o ho
  have ho' : coords = .diff o := ho
  subst ho'
  refine ⟨⟨[o.a, o.b, o.c], by simp [vecs_diff], rfl⟩, [o.v1, o.v2, o.v3], by simp [vecs_diff], fun m u hu => ?_⟩
  obtain ⟨e1, e2, e3⟩ := velocity_space k hu
  rw [e1, e2, e3]; rfl

/-- **C100 is false of this commit** after an assignment: when the body moves to coordinates with another position (in SI units), `pos_vec` is still the
old one. -/
theorem C100_refuted {name : String} {mass q R : BodyQty} {o o' : DiffObj} {parent : Option Body} {b : Body}
    (h : Body.new name mass q R (.diff o) parent = .ok b) (hne : o.a.si ≠ o'.a.si) : ¬ (b.setCoords (.diff o')).Consistent k := by
  intro hc
  have key : b.posVec = some [o.a, o.b, o.c] := by
    unfold Body.new at h
    split_ifs at h
    cases h
    simp [vecs_diff]
  obtain ⟨⟨p, hp, hp'⟩, -⟩ := hc o' rfl
  have hp2 : b.posVec = some p := hp
  rw [key] at hp2
  cases hp2
  simp only [List.map_cons, List.cons.injEq] at hp'
  exact hne hp'.1

theorem ancestors_some {b p : Body} (h : b.parent = some p) : b.ancestors = b :: p.ancestors := by
  rw [Body.ancestors]
  congr 1
  split
  · rename_i h'; rw [h] at h'; cases h'
  · rename_i q h'; rw [h] at h'; cases h'; rfl

theorem ancestors_none {b : Body} (h : b.parent = .none) : b.ancestors = [b] := by
  rw [Body.ancestors]
  congr 1
  split
  · rfl
  · rename_i q h'; rw [h] at h'; cases h'

/-- **C100.** A body made with a parent has the parent's chain of ancestors, one longer. -/
theorem C100_ancestors {name : String} {mass q R : BodyQty} {coords : BodyCoords} {parent : Option Body} {b : Body}
    (h : Body.new name mass q R coords parent = .ok b) :
    (∀ p, parent = some p → b.ancestors = b :: p.ancestors) ∧ (parent = .none → b.ancestors = [b]) := by
  have hp := ((C100_construct name mass q R coords parent).2.2 b h).2.2.2.2.2.1
  constructor
  · intro p e
    exact ancestors_some (hp.trans e)
  · intro e
    exact ancestors_none (hp.trans e)

theorem root_aux : ∀ (n : ℕ) (b : Body), sizeOf b ≤ n → ∃ r ∈ b.ancestors, r.parent = .none ∧ b.ancestors.getLast? = some r
  | 0, b, h => by cases b; simp only [Body.mk.sizeOf_spec] at h; omega
  | n + 1, b, h => by
    match hb : b.parent with
    | .none =>
      exact ⟨b, by rw [ancestors_none hb]; simp, hb, by rw [ancestors_none hb]; simp⟩
    | some p =>
      have hs : sizeOf p ≤ n := by
        cases b
        simp only at hb
        subst hb
        simp only [Body.mk.sizeOf_spec, Option.some.sizeOf_spec] at h
        omega
      obtain ⟨r, h1, h2, h3⟩ := root_aux n p hs
      refine ⟨r, ?_, h2, ?_⟩
      · rw [ancestors_some hb]; exact List.mem_cons_of_mem _ h1
      · rw [ancestors_some hb, List.getLast?_cons, h3]; rfl

/-- **C100.** The chain of every body, built in whatever way, ends in a body without parent. -/
theorem C100_root (b : Body) : ∃ r ∈ b.ancestors, r.parent = .none ∧ b.ancestors.getLast? = some r :=
  root_aux _ b le_rfl

/-- bodies.py:101: the Sun, a body as above; bodies.py:104: the Earth. -/
example : ∃ sun earth, Body.new "Sun" ⟨1.9891e30, 1, .mass⟩ ⟨0, 1, .charge⟩ ⟨695510, 1000, .length⟩ .none .none = .ok sun ∧
    Body.new "Earth" ⟨5.97219e24, 1, .mass⟩ ⟨0, 1, .charge⟩ ⟨6731, 1000, .length⟩ .none (some sun) = .ok earth ∧
    earth.ancestors = [earth, sun] := by
  refine ⟨_, _, rfl, rfl, ?_⟩
  rw [ancestors_some rfl, ancestors_none rfl]

/-- Non-vacuity of the consistency theorems: a body with Cartesian coordinates. -/
example : ∃ o o' b, DiffObj.new .cart (.ofSI 0 .time) (.ofSI 1 .length) (.ofSI 2 .length) (.ofSI 3 .length) (.ofSI 4 .speed) (.ofSI 5 .speed)
      (.ofSI 6 .speed) = .ok o ∧
    DiffObj.new .cart (.ofSI 0 .time) (.ofSI 7 .length) (.ofSI 2 .length) (.ofSI 3 .length) (.ofSI 4 .speed) (.ofSI 5 .speed)
      (.ofSI 6 .speed) = .ok o' ∧
    Body.new "Generic Body" ⟨1, 1, .mass⟩ ⟨0, 1, .charge⟩ ⟨0, 1000, .length⟩ (.diff o) .none = .ok b ∧ b.Consistent k ∧
    ¬ (b.setCoords (.diff o')).Consistent k := by
  refine ⟨_, _, _, rfl, rfl, rfl, ?_, ?_⟩
  · exact C100_consistent_partial k (name := "Generic Body") (mass := ⟨1, 1, .mass⟩) (q := ⟨0, 1, .charge⟩) (R := ⟨0, 1000, .length⟩)
      (parent := .none) rfl
  · refine C100_refuted k (name := "Generic Body") (mass := ⟨1, 1, .mass⟩) (q := ⟨0, 1, .charge⟩) (R := ⟨0, 1000, .length⟩)
      (parent := .none) rfl ?_
    show (1:ℝ) * 1 ≠ 7 * 1
    norm_num

end Einpy.Coord
