import Verif.Coord.Objects

/-!
# Coordinate objects: C75 (views of one object agree) and C76 (`velocity`)
-/

namespace Einpy.Coord
open Classical

variable (k : Num.PhysConst)

/-- The constructor's four arguments. -/
structure Args where
  t : Qty
  a : Qty
  b : Qty
  c : Qty

/-- They have the dimensions of the system. -/
def Args.Fit (s : Sys) (x : Args) : Prop :=
  x.t.dim = .time ∧ x.a.dim = .length ∧ x.b.dim = (if s = .cart then Dim.length else Dim.angle) ∧
    x.c.dim = (if s = .cart then Dim.length else Dim.angle)

/-- A fresh object. -/
def fresh (s : Sys) (x : Args) : CoordObj :=
  ⟨s, x.t, x.a, x.b, x.c, Conv.new ⟨x.t.si, x.a.si, x.b.si, x.c.si⟩ none none none, [x.t, x.a, x.b, x.c]⟩

theorem new_eq (s : Sys) (x : Args) : CoordObj.new s x.t x.a x.b x.c = if x.Fit s then .ok (fresh s x) else .error .valueError := by
  unfold CoordObj.new checkDim Args.Fit
  simp only [bind, Except.bind, pure, Except.pure]
  cases s <;> by_cases h1 : x.t.dim = .time <;> by_cases h2 : x.a.dim = .length <;>
    by_cases h3 : x.b.dim = .length <;> by_cases h3' : x.b.dim = .angle <;> by_cases h4 : x.c.dim = .length <;>
    by_cases h4' : x.c.dim = .angle <;> simp [Sys.posDim, h1, h2, h3, h3', h4, h4', fresh] <;> simp_all

/-- **C75**: the constructors accept exactly the arguments with the right dimensions, in any unit, and refuse all others
with a `ValueError`. -/
theorem C75_constructor (s : Sys) (x : Args) :
    ((∃ o, CoordObj.new s x.t x.a x.b x.c = .ok o) ↔ x.Fit s) ∧
    (∀ e, CoordObj.new s x.t x.a x.b x.c = .error e → e = .valueError) := by
  rw [new_eq]
  split_ifs with h
  · exact ⟨⟨fun _ => h, fun _ => ⟨_, rfl⟩⟩, fun e he => by cases he⟩
  · exact ⟨⟨fun ⟨_, h'⟩ => (by cases h'), fun h' => absurd h' h⟩, fun e he => (Except.error.inj he).symm⟩

theorem new_ok {s : Sys} {x : Args} {o : CoordObj} (h : CoordObj.new s x.t x.a x.b x.c = .ok o) : x.Fit s ∧ o = fresh s x := by
  rw [new_eq] at h
  split_ifs at h with h'
  exact ⟨h', (Except.ok.inj h).symm⟩

/-- **C75**: on a freshly constructed object every view shows the constructor's arguments: `position()` in SI units with
time in metres, `values()` in SI units, `obj[i]`, `obj[i-4]` and `obj[name]` the quantities themselves. -/
theorem C75_fresh_views {s : Sys} {x : Args} {o : CoordObj} (h : CoordObj.new s x.t x.a x.b x.c = .ok o) :
    o.position k = ![k.c * x.t.si, x.a.si, x.b.si, x.c.si] ∧
    o.conv.values = .ok (⟨x.t.si, x.a.si, x.b.si, x.c.si⟩, none) ∧
    (o.getItem (.int 0) = .ok (.qty x.t) ∧ o.getItem (.int 1) = .ok (.qty x.a) ∧ o.getItem (.int 2) = .ok (.qty x.b) ∧
      o.getItem (.int 3) = .ok (.qty x.c)) ∧
    (o.getItem (.int (-4)) = .ok (.qty x.t) ∧ o.getItem (.int (-3)) = .ok (.qty x.a) ∧
      o.getItem (.int (-2)) = .ok (.qty x.b) ∧ o.getItem (.int (-1)) = .ok (.qty x.c)) ∧
    (o.getItem (.str "t") = .ok (.qty x.t) ∧
      (s = .cart → o.getItem (.str "x") = .ok (.qty x.a) ∧ o.getItem (.str "y") = .ok (.qty x.b) ∧
        o.getItem (.str "z") = .ok (.qty x.c)) ∧
      (s ≠ .cart → o.getItem (.str "r") = .ok (.qty x.a) ∧ o.getItem (.str "theta") = .ok (.qty x.b) ∧
        o.getItem (.str "phi") = .ok (.qty x.c))) := by
  obtain ⟨_, rfl⟩ := new_ok h
  refine ⟨rfl, rfl, ?_, ?_, ?_⟩
  · cases s <;> exact ⟨rfl, rfl, rfl, rfl⟩
  · cases s <;> exact ⟨rfl, rfl, rfl, rfl⟩
  · cases s
    · exact ⟨rfl, fun _ => ⟨rfl, rfl, rfl⟩, fun h => absurd rfl h⟩
    · exact ⟨rfl, fun h => (by cases h), fun _ => ⟨rfl, rfl, rfl⟩⟩
    · exact ⟨rfl, fun h => (by cases h), fun _ => ⟨rfl, rfl, rfl⟩⟩

/-- Specification: the documented name of a coordinate system. -/
def systemName : Sys → String
  | .cart => "Cartesian"
  | .sph => "Spherical"
  | .bl => "BoyerLindquist"

/-- Specification: the documented names of the four coordinates. -/
def coordinateNames : Sys → List String
  | .cart => ["t", "x", "y", "z"]
  | .sph => ["t", "r", "theta", "phi"]
  | .bl => ["t", "r", "theta", "phi"]

theorem systemName_eq (s : Sys) : systemName s = s.name := by cases s <;> rfl

/-- **C75**: every other integer index raises `IndexError`, every other string `KeyError`, except `"system"`. -/
theorem C75_bad_index {s : Sys} {x : Args} {o : CoordObj} (h : CoordObj.new s x.t x.a x.b x.c = .ok o) :
    (∀ i : Int, (i < -4 ∨ 3 < i) → o.getItem (.int i) = .error .indexError) ∧
    (∀ n : String, n ∉ coordinateNames s → n ≠ "system" → o.getItem (.str n) = .error .keyError) ∧
    o.getItem (.str "system") = .ok (.name (systemName s)) := by
  obtain ⟨_, rfl⟩ := new_ok h
  rw [show coordinateNames s = s.names by cases s <;> rfl]
  refine ⟨fun i hi => ?_, fun n hn hs => ?_, by cases s <;> rfl⟩
  · have hlen : ((fresh s x).sys.names.length : Int) = 4 := by cases s <;> rfl
    have ht : tupleIndex (fresh s x).sys.names i = .error .indexError := by
      unfold tupleIndex
      rw [hlen]
      rcases hi with hi | hi
      · rw [if_pos (by omega : i < 0)]
        simp only
        rw [if_pos (by omega)]
      · rw [if_neg (by omega : ¬ i < 0)]
        simp only
        rw [if_neg (by omega), List.getElem?_eq_none (by omega)]
    unfold CoordObj.getItem
    simp only [bind, Except.bind, ht]
  · have : ((fresh s x).sys.names.zip (fresh s x).dimension).lookup n = none := by
      rw [List.lookup_eq_none_iff]
      rintro ⟨p, q⟩ hp
      have := (List.of_mem_zip hp).1
      simp only [bne_iff_ne, ne_eq, beq_eq_false_iff_ne]
      rintro rfl
      exact hn this
    show (fresh s x).lookup n = _
    unfold CoordObj.lookup
    rw [this]
    exact if_neg hs

/-- **C75**: the units in which the coordinates were given do not matter: equal physical arguments give equal positions,
equal values and the same result of every conversion. -/
theorem C75_units {s : Sys} {x x' : Args} {o o' : CoordObj} (h : CoordObj.new s x.t x.a x.b x.c = .ok o)
    (h' : CoordObj.new s x'.t x'.a x'.b x'.c = .ok o') (e1 : x.t.si = x'.t.si) (e2 : x.a.si = x'.a.si)
    (e3 : x.b.si = x'.b.si) (e4 : x.c.si = x'.c.si) :
    o.position k = o'.position k ∧ o.conv.values = o'.conv.values ∧ ∀ tgt kw, o.to k tgt kw = o'.to k tgt kw := by
  obtain ⟨_, rfl⟩ := new_ok h
  obtain ⟨_, rfl⟩ := new_ok h'
  have hc : (fresh s x).conv = (fresh s x').conv := by
    show Conv.new _ _ _ _ = Conv.new _ _ _ _
    rw [e1, e2, e3, e4]
  refine ⟨?_, by rw [hc], fun tgt kw => ?_⟩
  · show ![k.c * x.t.si, x.a.si, x.b.si, x.c.si] = ![k.c * x'.t.si, x'.a.si, x'.b.si, x'.c.si]
    rw [e1, e2, e3, e4]
  · unfold CoordObj.to
    rw [hc]
    rfl

theorem to_of_conv {o : CoordObj} {tgt : Sys} {kw : Kwargs} {p : Pos} (h : convertTo k o.sys tgt o.conv kw = .ok (p, none)) :
    o.to k tgt kw = .ok (fresh tgt ⟨.ofSI p.t .time, .ofSI p.a tgt.posDim.1, .ofSI p.b tgt.posDim.2.1,
      .ofSI p.c tgt.posDim.2.2⟩) := by
  unfold CoordObj.to
  simp only [bind, Except.bind, h]
  refine (new_eq tgt ⟨.ofSI p.t .time, .ofSI p.a tgt.posDim.1, .ofSI p.b tgt.posDim.2.1, .ofSI p.c tgt.posDim.2.2⟩).trans
    (if_pos ?_)
  cases tgt <;> exact ⟨rfl, rfl, rfl, rfl⟩

theorem ofSI_si (x : ℝ) (d : Dim) : (Qty.ofSI x d).si = x := by unfold Qty.ofSI Qty.si; exact mul_one x

theorem fresh_conv (s : Sys) (p : Pos) (d1 d2 d3 : Dim) :
    (fresh s ⟨.ofSI p.t .time, .ofSI p.a d1, .ofSI p.b d2, .ofSI p.c d3⟩).conv = Conv.ofTuple (p, none) := by
  show Conv.new ⟨_, _, _, _⟩ none none none = Conv.new _ none none none
  rw [ofSI_si, ofSI_si, ofSI_si, ofSI_si]

theorem fresh_position (s : Sys) (p : Pos) (d1 d2 d3 : Dim) :
    (fresh s ⟨.ofSI p.t .time, .ofSI p.a d1, .ofSI p.b d2, .ofSI p.c d3⟩).position k = ![k.c * p.t, p.a, p.b, p.c] := by
  show ![k.c * (Qty.ofSI p.t .time).si, (Qty.ofSI p.a d1).si, (Qty.ofSI p.b d2).si, (Qty.ofSI p.c d3).si] = _
  rw [ofSI_si, ofSI_si, ofSI_si, ofSI_si]

/-- **C75**: `obj.to_spherical().to_cartesian()` is at the same position as `obj`, for every Cartesian object in any
units. -/
theorem C75_object_round_trip {x : Args} {o : CoordObj} (h : CoordObj.new .cart x.t x.a x.b x.c = .ok o) (kw : Kwargs) :
    ∃ o₁ o₂, o.to k .sph kw = .ok o₁ ∧ o₁.to k .cart kw = .ok o₂ ∧ o₂.position k = o.position k ∧
      o₁.sys = .sph ∧ o₂.sys = .cart := by
  obtain ⟨_, rfl⟩ := new_ok h
  obtain ⟨q, h1, h2⟩ := C51_cartesian_round_trip x.t.si x.a.si x.b.si x.c.si
  obtain ⟨p, v⟩ := q
  have hv : v = none := by
    rw [conv_sph4] at h1
    exact (congrArg Prod.snd (Except.ok.inj h1)).symm
  subst hv
  refine ⟨_, _, to_of_conv k (o := fresh .cart x) (tgt := .sph) (kw := kw) h1,
    to_of_conv k (p := ⟨x.t.si, x.a.si, x.b.si, x.c.si⟩) ?_, ?_, rfl, rfl⟩
  · rw [fresh_conv]; exact h2
  · exact (fresh_position k .cart ⟨x.t.si, x.a.si, x.b.si, x.c.si⟩ _ _ _)

/-- **C75**: … and the same through Boyer-Lindquist coordinates, off the disk. -/
theorem C75_object_round_trip_bl {x : Args} {o : CoordObj} (h : CoordObj.new .cart x.t x.a x.b x.c = .ok o) {M a : ℝ}
    (ha : 0 ≤ a ∧ a ≤ 1) (hreg : x.c.si ≠ 0 ∨ (a * (k.G * M / k.c ^ 2)) ^ 2 < x.a.si ^ 2 + x.b.si ^ 2) :
    ∃ o₁ o₂, o.to k .bl ⟨some M, some a⟩ = .ok o₁ ∧ o₁.to k .cart ⟨some M, some a⟩ = .ok o₂ ∧
      o₂.position k = o.position k ∧ o₁.sys = .bl ∧ o₂.sys = .cart := by
  obtain ⟨_, rfl⟩ := new_ok h
  obtain ⟨q, h1, h2⟩ := C52_cartesian_round_trip k x.t.si x.a.si x.b.si x.c.si M a ha hreg
  obtain ⟨p, v⟩ := q
  have hv : v = none := by
    have := ((cartBl_dispatched k ⟨some M, some a⟩ _ none none none).2 _ h1).2
    simpa using this
  subst hv
  refine ⟨_, _, to_of_conv k (o := fresh .cart x) (tgt := .bl) (kw := ⟨some M, some a⟩) h1,
    to_of_conv k (p := ⟨x.t.si, x.a.si, x.b.si, x.c.si⟩) ?_, ?_, rfl, rfl⟩
  · rw [fresh_conv]; exact h2
  · exact (fresh_position k .cart ⟨x.t.si, x.a.si, x.b.si, x.c.si⟩ _ _ _)

/-- A history of attribute assignments. -/
def CoordObj.assignAll (o : CoordObj) (l : List (Fin 4 × Qty)) : CoordObj := l.foldl (fun o p => o.assign p.1 p.2) o

theorem position_assign (o : CoordObj) (i : Fin 4) (q : Qty) :
    (o.assign i q).position k = Function.update (o.position k) i (if i = 0 then k.c * q.si else q.si) := by
  funext j
  fin_cases i <;> fin_cases j <;> rfl

/-- **C75 (objects as constructed)**: after any history of attribute assignments `position()` shows the last assignment,
while `obj[...]`, `values()` and every conversion still show the constructor's arguments. -/
theorem C75_after_assignments_partial (o : CoordObj) (l : List (Fin 4 × Qty)) :
    (o.assignAll l).position k = l.foldl (fun p a => Function.update p a.1 (if a.1 = 0 then k.c * a.2.si else a.2.si))
      (o.position k) ∧
    (∀ it, (o.assignAll l).getItem it = o.getItem it) ∧ (o.assignAll l).conv.values = o.conv.values ∧
    (∀ tgt kw, (o.assignAll l).to k tgt kw = o.to k tgt kw) := by
  induction l generalizing o with
  | nil => exact ⟨rfl, fun _ => rfl, rfl, fun _ _ => rfl⟩
  | cons p l ih =>
    obtain ⟨i, q⟩ := p
    obtain ⟨h1, h2, h3, h4⟩ := ih (o.assign i q)
    refine ⟨h1.trans ?_, fun it => (h2 it).trans ?_, h3.trans ?_, fun tgt kw => (h4 tgt kw).trans ?_⟩
    · rw [position_assign]; rfl
    · fin_cases i <;> cases it <;> rfl
    · fin_cases i <;> rfl
    · fin_cases i <;> rfl

/-- **C75 is false of this commit after an assignment**: assigning a new `x` to a Cartesian object changes `position()` but
neither `obj["x"]` nor the converted position. -/
theorem C75_refuted {x : Args} {o : CoordObj} (h : CoordObj.new .cart x.t x.a x.b x.c = .ok o) (q : Qty)
    (hq : q.si ≠ x.a.si) :
    (o.assign 1 q).position k 1 = q.si ∧ (o.assign 1 q).getItem (.str "x") = .ok (.qty x.a) ∧
    (o.assign 1 q).position k ≠ o.position k ∧ ∀ kw, (o.assign 1 q).to k .sph kw = o.to k .sph kw := by
  obtain ⟨_, rfl⟩ := new_ok h
  refine ⟨rfl, rfl, fun e => hq (congrFun e 1), fun kw => rfl⟩

/-- The hypotheses are met: one kilometre, one metre, one centimetre. -/
example : ∃ o, CoordObj.new .cart (Qty.ofSI 0 .time) ⟨1, 1000, .length, by norm_num⟩ (.ofSI 1 .length)
    ⟨1, 0.01, .length, by norm_num⟩ = .ok o := ⟨_, rfl⟩

/-! ## C76 -/

/-- **C76**: a metric in another coordinate system is refused with `CoordinateError`, and the object is untouched. -/
theorem C76_coordinate_error (o : DiffObj) (m : MetricObj) (h : systemName o.sys ≠ m.system) :
    o.velocity k m = (.error .coordinateError, o) := by
  rw [systemName_eq] at h
  unfold DiffObj.velocity DiffObj.setVt
  rw [if_pos h]

theorem setVt_cases (o : DiffObj) (m : MetricObj) (h : systemName o.sys = m.system) :
    o.setVt k m = (match (do let g ← m.cov (o.position k); Num.v0 k g o.v1.si o.v2.si o.v3.si : Py ℝ) with
    | .ok x => (.ok x, { o with vt := some (.ok x) })
    | .error .notANumber => (.error .notANumber, { o with vt := some (.error .notANumber) })
    | .error e => (.error e, o)) := by
  rw [systemName_eq] at h
  unfold DiffObj.setVt
  rw [if_neg (by simp [h])]
  rfl

/-- **C76**: a four-velocity that is returned consists of the object's three velocities in SI units and a time component
that makes its square `c²` in the metric at the object's position; it is what the attribute `v_t` then holds. -/
theorem C76_normalised (o : DiffObj) (m : MetricObj) {u : Num.Vec4} {o' : DiffObj}
    (hsym : ∀ x g, m.cov x = .ok g → ∀ i j, g i j = g j i) (h : o.velocity k m = (.ok u, o')) :
    (∃ g, m.cov ![k.c * o.t.si, o.a.si, o.b.si, o.c.si] = .ok g ∧ Num.normSq g u = k.c ^ 2) ∧
    u 1 = o.v1.si ∧ u 2 = o.v2.si ∧ u 3 = o.v3.si ∧ o' = { o with vt := some (.ok (u 0)) } ∧ systemName o.sys = m.system := by
  by_cases hs : systemName o.sys = m.system
  swap
  · rw [C76_coordinate_error k o m hs] at h; cases congrArg Prod.fst h
  unfold DiffObj.velocity at h
  rw [setVt_cases k o m hs] at h
  simp only [bind, Except.bind] at h
  cases hg : m.cov (o.position k) with
  | error e => rw [hg] at h; cases e <;> cases congrArg Prod.fst h
  | ok g =>
    rw [hg] at h
    simp only at h
    cases hv : Num.v0 k g o.v1.si o.v2.si o.v3.si with
    | error e => rw [hv] at h; cases e <;> cases congrArg Prod.fst h
    | ok x =>
      rw [hv] at h
      have h1 := Except.ok.inj (congrArg Prod.fst h)
      have h2 := congrArg Prod.snd h
      simp only at h1 h2
      rw [← h1, ← h2]
      exact ⟨⟨g, hg, (Num.C50_v0_normalises k (hsym _ _ hg) hv).1⟩, rfl, rfl, rfl, rfl, hs⟩

/-- A history of calls of `velocity` with various metrics. -/
noncomputable def DiffObj.calls (o : DiffObj) (l : List MetricObj) : DiffObj := l.foldl (fun o m => (o.velocity k m).2) o

theorem velocity_state (o : DiffObj) (m : MetricObj) : ∃ v, (o.velocity k m).2 = { o with vt := v } := by
  by_cases hs : systemName o.sys = m.system
  swap
  · rw [C76_coordinate_error k o m hs]; exact ⟨o.vt, rfl⟩
  unfold DiffObj.velocity
  rw [setVt_cases k o m hs]
  generalize (do let g ← m.cov (o.position k); Num.v0 k g o.v1.si o.v2.si o.v3.si : Py ℝ) = r
  cases r with
  | ok x => exact ⟨_, rfl⟩
  | error e => cases e <;> exact ⟨_, rfl⟩

theorem velocity_vt (o : DiffObj) (v : Option (Py ℝ)) (m : MetricObj) :
    (({ o with vt := v } : DiffObj).velocity k m).1 = (o.velocity k m).1 ∧
    ((o.velocity k m).1 ≠ .error .coordinateError → (∀ e, (o.velocity k m).1 = .error e → e = .notANumber) →
      (({ o with vt := v } : DiffObj).velocity k m).2 = (o.velocity k m).2) := by
  by_cases hs : systemName o.sys = m.system
  swap
  · have h2 := C76_coordinate_error k { o with vt := v } m hs
    rw [h2, C76_coordinate_error k o m hs]
    exact ⟨rfl, fun h => absurd rfl h⟩
  unfold DiffObj.velocity
  rw [setVt_cases k o m hs, setVt_cases k { o with vt := v } m hs]
  have : ({ o with vt := v } : DiffObj).position k = o.position k := rfl
  simp only [this]
  generalize (do let g ← m.cov (o.position k); Num.v0 k g o.v1.si o.v2.si o.v3.si : Py ℝ) = r
  cases r with
  | ok x => exact ⟨rfl, fun _ _ => rfl⟩
  | error e =>
    cases e <;> first
      | exact ⟨rfl, fun _ _ => rfl⟩
      | exact ⟨rfl, fun _ h => (by cases h _ rfl)⟩

/-- **C76**: the four-velocity does not depend on the calls made before, whatever metrics they used and whether they
failed: after any history the object answers as a fresh one, and only `v_t` has changed. -/
theorem C76_history_independent (o : DiffObj) (l : List MetricObj) (m : MetricObj) :
    ((o.calls k l).velocity k m).1 = (o.velocity k m).1 ∧ ∃ v, o.calls k l = { o with vt := v } := by
  have hst : ∃ v, o.calls k l = { o with vt := v } := by
    induction l generalizing o with
    | nil => exact ⟨o.vt, rfl⟩
    | cons m' l ih =>
      obtain ⟨v, hv⟩ := velocity_state k o m'
      obtain ⟨w, hw⟩ := ih (o.velocity k m').2
      refine ⟨w, ?_⟩
      show DiffObj.calls k (o.velocity k m').2 l = _
      rw [hw, hv]
  obtain ⟨v, hv⟩ := hst
  exact ⟨by rw [hv]; exact (velocity_vt k o v m).1, v, hv⟩

/-- **C76**: `v_t` holds the time component of the last call that returned a value: a later refused call does not
disturb it. -/
theorem C76_v_t_survives_refusal (o : DiffObj) (m : MetricObj) {u : Num.Vec4} {o' : DiffObj}
    (hsym : ∀ x g, m.cov x = .ok g → ∀ i j, g i j = g j i) (h : o.velocity k m = (.ok u, o'))
    (l : List MetricObj) (hl : ∀ m' ∈ l, systemName o.sys ≠ m'.system) : (o'.calls k l).vt = some (.ok (u 0)) := by
  have h1 := (C76_normalised k o m hsym h).2.2.2.2.1
  have hs : o'.sys = o.sys := by rw [h1]
  have : o'.calls k l = o' := by
    induction l with
    | nil => rfl
    | cons m' l ih =>
      show DiffObj.calls k (o'.velocity k m').2 l = _
      rw [C76_coordinate_error k o' m' (by rw [hs]; exact hl m' List.mem_cons_self)]
      exact ih fun m'' hm => hl m'' (List.mem_cons_of_mem _ hm)
  rw [this, h1]

theorem diff_new_ok {sys : Sys} {t a b c v1 v2 v3 : Qty} {o : DiffObj} (h : DiffObj.new sys t a b c v1 v2 v3 = .ok o) :
    o = ⟨sys, t, a, b, c, v1, v2, v3, Conv.new ⟨t.si, a.si, b.si, c.si⟩ (some v1.si) (some v2.si) (some v3.si), none⟩ := by
  unfold DiffObj.new checkDim at h
  simp only [bind, Except.bind, pure, Except.pure] at h
  by_cases h_t : t.dim = .time
  swap
  · rw [if_neg h_t] at h; cases h
  rw [if_pos h_t] at h
  simp only at h
  by_cases h_a : a.dim = sys.posDim.1
  swap
  · rw [if_neg h_a] at h; cases h
  rw [if_pos h_a] at h
  simp only at h
  by_cases h_b : b.dim = sys.posDim.2.1
  swap
  · rw [if_neg h_b] at h; cases h
  rw [if_pos h_b] at h
  simp only at h
  by_cases h_c : c.dim = sys.posDim.2.2
  swap
  · rw [if_neg h_c] at h; cases h
  rw [if_pos h_c] at h
  simp only at h
  by_cases h_v1 : v1.dim = sys.velDim.1
  swap
  · rw [if_neg h_v1] at h; cases h
  rw [if_pos h_v1] at h
  simp only at h
  by_cases h_v2 : v2.dim = sys.velDim.2.1
  swap
  · rw [if_neg h_v2] at h; cases h
  rw [if_pos h_v2] at h
  simp only at h
  by_cases h_v3 : v3.dim = sys.velDim.2.2
  swap
  · rw [if_neg h_v3] at h; cases h
  rw [if_pos h_v3] at h
  simp only at h
  exact (Except.ok.inj h).symm

/-- **C76** for the library's own metric: outside the horizon of a Schwarzschild black hole, off the axis, every velocity
can be completed, whatever the units, and the result is future directed; the hypotheses of the theorems above are met. -/
theorem C76_schwarzschild {t r th ph v1 v2 v3 : Qty} {o : DiffObj} (h : DiffObj.new .sph t r th ph v1 v2 v3 = .ok o)
    (M : ℝ) (hr : 0 < r.si) (hout : Num.schwarzschildRadius k M < r.si) (hs : Real.sin th.si ≠ 0) :
    let m : MetricObj := ⟨"Spherical", Num.Schwarzschild.metricCovariant k (Num.Schwarzschild.new k "Spherical" M)⟩
    (∀ x g, m.cov x = .ok g → ∀ i j, g i j = g j i) ∧
    ∃ u o', o.velocity k m = (.ok u, o') ∧ 0 < u 0 ∧ u 1 = v1.si ∧ u 2 = v2.si ∧ u 3 = v3.si := by
  intro m
  have hsym : ∀ x g, m.cov x = .ok g → ∀ i j, g i j = g j i := by
    intro x g hg
    have hg' := (Num.sch_metric k M x).symm.trans hg
    split_ifs at hg'
    rw [← Except.ok.inj hg']
    exact Num.axi_symm _ _ _ _ _
  refine ⟨hsym, ?_⟩
  have ho : o.sys = .sph ∧ o.t = t ∧ o.a = r ∧ o.b = th ∧ o.c = ph ∧ o.v1 = v1 ∧ o.v2 = v2 ∧ o.v3 = v3 := by
    rw [diff_new_ok h]
    exact ⟨rfl, rfl, rfl, rfl, rfl, rfl, rfl, rfl⟩
  obtain ⟨e0, e1, e2, e3, e4, e5, e6, e7⟩ := ho
  have hA : 0 < 1 - Num.schwarzschildRadius k M / r.si := by rw [sub_pos, div_lt_one hr]; exact hout
  have hg : m.cov (o.position k) = .ok (Num.schT k.c (Num.schwarzschildRadius k M) r.si th.si) := by
    refine (Num.sch_metric k M _).trans ?_
    rw [show o.position k 1 = r.si by rw [← e2]; rfl, show o.position k 2 = th.si by rw [← e3]; rfl]
    exact if_neg (not_or.mpr ⟨hr.ne', hA.ne'⟩)
  have hc := k.c_pos
  obtain ⟨u, hu, hpos⟩ := Num.C50_v0_static_future k (A := (1 - Num.schwarzschildRadius k M / r.si) * k.c ^ 2)
    (B := -1 / (1 - Num.schwarzschildRadius k M / r.si)) (C := -(r.si ^ 2)) (D := -((r.si * Real.sin th.si) ^ 2))
    (by positivity) (div_neg_of_neg_of_pos (by norm_num) hA) (by simp; positivity) (by simp; positivity) v1.si v2.si v3.si
  have hv : Num.v0 k (Num.schT k.c (Num.schwarzschildRadius k M) r.si th.si) o.v1.si o.v2.si o.v3.si = .ok u := by
    rw [e5, e6, e7]; exact hu
  refine ⟨![u, o.v1.si, o.v2.si, o.v3.si], { o with vt := some (.ok u) }, ?_, hpos, ?_, ?_, ?_⟩
  · unfold DiffObj.velocity
    rw [setVt_cases k o m (by rw [e0]; rfl)]
    simp only [bind, Except.bind, hg, hv]
  · rw [← e5]; rfl
  · rw [← e6]; rfl
  · rw [← e7]; rfl

end Einpy.Coord
