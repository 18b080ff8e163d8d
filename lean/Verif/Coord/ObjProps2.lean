import Verif.Coord.ObjProps

/-!
# Coordinate objects: C79 (conversions of objects are the conversions of their SI values)
-/

namespace Einpy.Coord
open Classical

variable (k : Num.PhysConst)

/-- `r`, the outcome of converting a position object, shows the outcome `q` of converting bare SI numbers: the same
error, or an object of the target system with those coordinates. -/
def ShowsPos (tgt : Sys) (r : Py CoordObj) (q : Py Out) : Prop :=
  match q with
  | .error e => r = .error e
  | .ok (p, _) => ∃ o, r = .ok o ∧ o.sys = tgt ∧ o.t.si = p.t ∧ o.a.si = p.a ∧ o.b.si = p.b ∧ o.c.si = p.c

/-- The same for an object with velocities. -/
def ShowsVel (tgt : Sys) (r : Py DiffObj) (q : Py Out) : Prop :=
  match q with
  | .error e => r = .error e
  | .ok (_, none) => False
  | .ok (p, some V) => ∃ o, r = .ok o ∧ o.sys = tgt ∧ o.t.si = p.t ∧ o.a.si = p.a ∧ o.b.si = p.b ∧ o.c.si = p.c ∧
      o.v1.si = V.a ∧ o.v2.si = V.b ∧ o.v3.si = V.c

theorem kw_bind (kw : Kwargs) (f : Conv → Kwargs → Py Out) (s : Conv)
    (h : ∀ e, kw.get = .error e → f s kw = .error e) :
    (do let (M, a) ← kw.get; f s ⟨some M, some a⟩ : Py Out) = f s kw := by
  obtain ⟨M, a⟩ := kw
  cases M <;> cases a <;> first | rfl | exact (h _ rfl).symm

theorem cartBl_kw (kw : Kwargs) (s : Conv) :
    (do let (M, a) ← kw.get; Cartesian.convertBl k s ⟨some M, some a⟩ : Py Out) = Cartesian.convertBl k s kw :=
  kw_bind kw (Cartesian.convertBl k) s fun e h => by
    unfold Cartesian.convertBl; simp only [bind, Except.bind, h]

theorem sphBl_kw (kw : Kwargs) (s : Conv) :
    (do let (M, a) ← kw.get; Spherical.convertBl k s ⟨some M, some a⟩ : Py Out) = Spherical.convertBl k s kw :=
  kw_bind kw (Spherical.convertBl k) s fun e h => by
    unfold Spherical.convertBl; simp only [bind, Except.bind, h]

theorem blCart_kw (kw : Kwargs) (s : Conv) :
    (do let (M, a) ← kw.get; BoyerLindquist.convertCartesian k s ⟨some M, some a⟩ : Py Out) =
      BoyerLindquist.convertCartesian k s kw :=
  kw_bind kw (BoyerLindquist.convertCartesian k) s fun e h => by
    unfold BoyerLindquist.convertCartesian; simp only [bind, Except.bind, h]

theorem blSph_kw (kw : Kwargs) (s : Conv) :
    (do let (M, a) ← kw.get; BoyerLindquist.convertSpherical k s ⟨some M, some a⟩ : Py Out) =
      BoyerLindquist.convertSpherical k s kw :=
  kw_bind kw (BoyerLindquist.convertSpherical k) s fun e h => by
    unfold BoyerLindquist.convertSpherical; simp only [bind, Except.bind, h]

theorem showsPos_of {o : CoordObj} {tgt : Sys} {kw : Kwargs} {q : Py Out} (h : convertTo k o.sys tgt o.conv kw = q)
    (hq : ∀ r, q = .ok r → r.2 = none) : ShowsPos tgt (o.to k tgt kw) q := by
  cases q with
  | error e =>
    show o.to k tgt kw = .error e
    unfold CoordObj.to
    simp only [bind, Except.bind, h]
  | ok r =>
    obtain ⟨p, v⟩ := r
    have hv : v = none := hq _ rfl
    subst hv
    refine ⟨_, to_of_conv k h, rfl, ofSI_si _ _, ofSI_si _ _, ofSI_si _ _, ofSI_si _ _⟩

theorem diff_new_fit (tgt : Sys) (p : Pos) (V : Vel) :
    DiffObj.new tgt (.ofSI p.t .time) (.ofSI p.a tgt.posDim.1) (.ofSI p.b tgt.posDim.2.1) (.ofSI p.c tgt.posDim.2.2)
      (.ofSI V.a tgt.velDim.1) (.ofSI V.b tgt.velDim.2.1) (.ofSI V.c tgt.velDim.2.2) =
    .ok ⟨tgt, .ofSI p.t .time, .ofSI p.a tgt.posDim.1, .ofSI p.b tgt.posDim.2.1, .ofSI p.c tgt.posDim.2.2,
      .ofSI V.a tgt.velDim.1, .ofSI V.b tgt.velDim.2.1, .ofSI V.c tgt.velDim.2.2,
      Conv.ofTuple (p, some V), none⟩ := by
  have h : ∀ x d, checkDim (Qty.ofSI x d) d = .ok (Qty.ofSI x d) := fun x d => if_pos rfl
  unfold DiffObj.new
  simp only [h, bind, Except.bind, pure, Except.pure, ofSI_si]
  rfl

theorem diff_to_of_conv {o : DiffObj} {tgt : Sys} {kw : Kwargs} {p : Pos} {V : Vel}
    (h : convertTo k o.sys tgt o.conv kw = .ok (p, some V)) : o.to k tgt kw =
    .ok ⟨tgt, .ofSI p.t .time, .ofSI p.a tgt.posDim.1, .ofSI p.b tgt.posDim.2.1, .ofSI p.c tgt.posDim.2.2,
      .ofSI V.a tgt.velDim.1, .ofSI V.b tgt.velDim.2.1, .ofSI V.c tgt.velDim.2.2,
      Conv.ofTuple (p, some V), none⟩ := by
  unfold DiffObj.to
  simp only [bind, Except.bind, h]
  exact diff_new_fit tgt p V

theorem showsVel_of {o : DiffObj} {tgt : Sys} {kw : Kwargs} {q : Py Out} (h : convertTo k o.sys tgt o.conv kw = q)
    (hq : ∀ r, q = .ok r → r.2.isSome) : ShowsVel tgt (o.to k tgt kw) q := by
  cases q with
  | error e =>
    show o.to k tgt kw = .error e
    unfold DiffObj.to
    simp only [bind, Except.bind, h]
  | ok r =>
    obtain ⟨p, v⟩ := r
    cases v with
    | none => exact absurd (hq _ rfl) (by simp)
    | some V =>
      exact ⟨_, diff_to_of_conv k h, rfl, ofSI_si _ _, ofSI_si _ _, ofSI_si _ _, ofSI_si _ _, ofSI_si _ _, ofSI_si _ _, ofSI_si _ _⟩

/-- **C79.** Positions: for a fresh object in any units, each of the six conversions (`to_spherical`, `to_bl`,
`to_cartesian`) shows the result of the numeric conversion of the same name on its coordinates in SI units: same
numbers, or the same error. -/
theorem C79_positions {s : Sys} {x : Args} {o : CoordObj} (h : CoordObj.new s x.t x.a x.b x.c = .ok o) (kw : Kwargs) :
    let c := Conv.new ⟨x.t.si, x.a.si, x.b.si, x.c.si⟩ none none none
    (s = .cart → ShowsPos .sph (o.to k .sph kw) (Cartesian.convertSpherical c) ∧
      ShowsPos .bl (o.to k .bl kw) (Cartesian.convertBl k c kw)) ∧
    (s = .sph → ShowsPos .cart (o.to k .cart kw) (Spherical.convertCartesian c) ∧
      ShowsPos .bl (o.to k .bl kw) (Spherical.convertBl k c kw)) ∧
    (s = .bl → ShowsPos .cart (o.to k .cart kw) (BoyerLindquist.convertCartesian k c kw) ∧
      ShowsPos .sph (o.to k .sph kw) (BoyerLindquist.convertSpherical k c kw)) := by
  intro c
  obtain ⟨_, rfl⟩ := new_ok h
  obtain ⟨d1, d2, d3, d4, d5, d6⟩ := C74_dispatch k kw
  have none_of : ∀ {f : Conv → Py Out}, WellDispatched f → ∀ r, f c = .ok r → r.2 = none := by
    intro f hf r hr
    have := ((hf _ none none none).2 _ hr).2
    simpa using this
  refine ⟨?_, ?_, ?_⟩ <;> rintro rfl
  · exact ⟨showsPos_of k rfl (none_of d1), showsPos_of k (cartBl_kw k kw _) (none_of d3)⟩
  · exact ⟨showsPos_of k rfl (none_of d2), showsPos_of k (sphBl_kw k kw _) (none_of d4)⟩
  · exact ⟨showsPos_of k (blCart_kw k kw _) (none_of d5), showsPos_of k (blSph_kw k kw _) (none_of d6)⟩

/-- **C79.** Velocities: the same for objects with velocities (`spherical_differential`, `bl_differential`,
`cartesian_differential`). -/
theorem C79_velocities {s : Sys} {t a b c v1 v2 v3 : Qty} {o : DiffObj} (h : DiffObj.new s t a b c v1 v2 v3 = .ok o)
    (kw : Kwargs) :
    let n := Conv.new ⟨t.si, a.si, b.si, c.si⟩ (some v1.si) (some v2.si) (some v3.si)
    (s = .cart → ShowsVel .sph (o.to k .sph kw) (Cartesian.convertSpherical n) ∧
      ShowsVel .bl (o.to k .bl kw) (Cartesian.convertBl k n kw)) ∧
    (s = .sph → ShowsVel .cart (o.to k .cart kw) (Spherical.convertCartesian n) ∧
      ShowsVel .bl (o.to k .bl kw) (Spherical.convertBl k n kw)) ∧
    (s = .bl → ShowsVel .cart (o.to k .cart kw) (BoyerLindquist.convertCartesian k n kw) ∧
      ShowsVel .sph (o.to k .sph kw) (BoyerLindquist.convertSpherical k n kw)) := by
  intro n
  have ho := diff_new_ok h
  subst ho
  obtain ⟨d1, d2, d3, d4, d5, d6⟩ := C74_dispatch k kw
  have some_of : ∀ {f : Conv → Py Out}, WellDispatched f → ∀ r, f n = .ok r → r.2.isSome := by
    intro f hf r hr
    have := ((hf _ (some v1.si) (some v2.si) (some v3.si)).2 _ hr).2
    simpa using this
  refine ⟨?_, ?_, ?_⟩ <;> rintro rfl
  · exact ⟨showsVel_of k rfl (some_of d1), showsVel_of k (cartBl_kw k kw _) (some_of d3)⟩
  · exact ⟨showsVel_of k rfl (some_of d2), showsVel_of k (sphBl_kw k kw _) (some_of d4)⟩
  · exact ⟨showsVel_of k (blCart_kw k kw _) (some_of d5), showsVel_of k (blSph_kw k kw _) (some_of d6)⟩

/-- **C79.** A differential converted to spherical coordinates and back is the original: the same event and the same
velocity in SI units, off the polar axis. -/
theorem C79_differential_round_trip {t a b c v1 v2 v3 : Qty} {o : DiffObj}
    (h : DiffObj.new .cart t a b c v1 v2 v3 = .ok o) (hoff : a.si ≠ 0 ∨ b.si ≠ 0) (kw : Kwargs) :
    ∃ o₁ o₂, o.to k .sph kw = .ok o₁ ∧ o₁.to k .cart kw = .ok o₂ ∧ o₂.sys = .cart ∧ o₂.position k = o.position k ∧
      o₂.v1.si = v1.si ∧ o₂.v2.si = v2.si ∧ o₂.v3.si = v3.si := by
  have ho := diff_new_ok h
  subst ho
  obtain ⟨q, h1, h2⟩ := C51_cartesian_round_trip_velocity t.si a.si b.si c.si v1.si v2.si v3.si hoff
  obtain ⟨p, v⟩ := q
  cases v with
  | none =>
    have := ((cartSph_dispatched _ (some v1.si) (some v2.si) (some v3.si)).2 _ h1).2
    simp at this
  | some V =>
    refine ⟨_, _, diff_to_of_conv k h1, diff_to_of_conv k (p := ⟨t.si, a.si, b.si, c.si⟩) (V := ⟨v1.si, v2.si, v3.si⟩) h2,
      rfl, ?_, ofSI_si _ _, ofSI_si _ _, ofSI_si _ _⟩
    unfold DiffObj.position
    simp only [ofSI_si]

/-- The hypotheses are met: a body 1 km from the axis moving at 3 km/h. -/
example : ∃ o, DiffObj.new .cart (Qty.ofSI 0 .time) ⟨1, 1000, .length, by norm_num⟩ (.ofSI 1 .length)
    ⟨1, 0.01, .length, by norm_num⟩ ⟨3, 1000 / 3600, .speed, by norm_num⟩ (.ofSI 0 .speed) (.ofSI 0 .speed) = .ok o ∧
    (⟨1, 1000, .length, by norm_num⟩ : Qty).si ≠ 0 := ⟨_, rfl, by norm_num [Qty.si]⟩

/-- `position()` of a fresh differential: time in metres and the coordinates in SI units. -/
theorem C79_differential_position {s : Sys} {t a b c v1 v2 v3 : Qty} {o : DiffObj}
    (h : DiffObj.new s t a b c v1 v2 v3 = .ok o) : o.position k = ![k.c * t.si, a.si, b.si, c.si] := by
  rw [diff_new_ok h]; rfl

/-- **C79, dimensions of differentials.** A differential object can be made exactly if the time is a time, the first
coordinate a length, its velocity a speed, and the other two coordinates and velocities are lengths and speeds (Cartesian) or
angles and angular speeds (spherical and Boyer-Lindquist); otherwise ValueError is raised. -/
theorem C79_differential_constructor (s : Sys) (t a b c v1 v2 v3 : Qty) :
    ((∃ o, DiffObj.new s t a b c v1 v2 v3 = .ok o) ↔ t.dim = .time ∧ a.dim = .length ∧ v1.dim = .speed ∧
      (s = .cart → b.dim = .length ∧ c.dim = .length ∧ v2.dim = .speed ∧ v3.dim = .speed) ∧
      (s ≠ .cart → b.dim = .angle ∧ c.dim = .angle ∧ v2.dim = .angularSpeed ∧ v3.dim = .angularSpeed)) ∧
    (∀ e, DiffObj.new s t a b c v1 v2 v3 = .error e → e = .valueError) := by
  have cd : ∀ (q : Qty) (d : Dim), (q.dim = d ∧ checkDim q d = .ok q) ∨ (q.dim ≠ d ∧ checkDim q d = .error .valueError) := by
    intro q d
    by_cases h : q.dim = d
    · exact Or.inl ⟨h, if_pos h⟩
    · exact Or.inr ⟨h, if_neg h⟩
  have key : (∃ o, DiffObj.new s t a b c v1 v2 v3 = .ok o) ∧ (t.dim = .time ∧ a.dim = s.posDim.1 ∧ b.dim = s.posDim.2.1 ∧
      c.dim = s.posDim.2.2 ∧ v1.dim = s.velDim.1 ∧ v2.dim = s.velDim.2.1 ∧ v3.dim = s.velDim.2.2) ∨
      (DiffObj.new s t a b c v1 v2 v3 = .error .valueError ∧ ¬ (t.dim = .time ∧ a.dim = s.posDim.1 ∧ b.dim = s.posDim.2.1 ∧
      c.dim = s.posDim.2.2 ∧ v1.dim = s.velDim.1 ∧ v2.dim = s.velDim.2.1 ∧ v3.dim = s.velDim.2.2)) := by
    unfold DiffObj.new
    rcases cd t .time with ⟨h1, e1⟩ | ⟨h1, e1⟩
    swap
    · exact Or.inr ⟨by rw [e1]; rfl, fun h => h1 h.1⟩
    rcases cd a s.posDim.1 with ⟨h2, e2⟩ | ⟨h2, e2⟩
    swap
    · exact Or.inr ⟨by rw [e1, e2]; rfl, fun h => h2 h.2.1⟩
    rcases cd b s.posDim.2.1 with ⟨h3, e3⟩ | ⟨h3, e3⟩
    swap
    · exact Or.inr ⟨by rw [e1, e2, e3]; rfl, fun h => h3 h.2.2.1⟩
    rcases cd c s.posDim.2.2 with ⟨h4, e4⟩ | ⟨h4, e4⟩
    swap
    · exact Or.inr ⟨by rw [e1, e2, e3, e4]; rfl, fun h => h4 h.2.2.2.1⟩
    rcases cd v1 s.velDim.1 with ⟨h5, e5⟩ | ⟨h5, e5⟩
    swap
    · exact Or.inr ⟨by rw [e1, e2, e3, e4, e5]; rfl, fun h => h5 h.2.2.2.2.1⟩
    rcases cd v2 s.velDim.2.1 with ⟨h6, e6⟩ | ⟨h6, e6⟩
    swap
    · exact Or.inr ⟨by rw [e1, e2, e3, e4, e5, e6]; rfl, fun h => h6 h.2.2.2.2.2.1⟩
    rcases cd v3 s.velDim.2.2 with ⟨h7, e7⟩ | ⟨h7, e7⟩
    swap
    · exact Or.inr ⟨by rw [e1, e2, e3, e4, e5, e6, e7]; rfl, fun h => h7 h.2.2.2.2.2.2⟩
    exact Or.inl ⟨by rw [e1, e2, e3, e4, e5, e6, e7]; exact ⟨_, rfl⟩, h1, h2, h3, h4, h5, h6, h7⟩
  have hdim : (t.dim = .time ∧ a.dim = s.posDim.1 ∧ b.dim = s.posDim.2.1 ∧
      c.dim = s.posDim.2.2 ∧ v1.dim = s.velDim.1 ∧ v2.dim = s.velDim.2.1 ∧ v3.dim = s.velDim.2.2) ↔
      t.dim = .time ∧ a.dim = .length ∧ v1.dim = .speed ∧
      (s = .cart → b.dim = .length ∧ c.dim = .length ∧ v2.dim = .speed ∧ v3.dim = .speed) ∧
      (s ≠ .cart → b.dim = .angle ∧ c.dim = .angle ∧ v2.dim = .angularSpeed ∧ v3.dim = .angularSpeed) := by
    cases s <;> simp [Sys.posDim, Sys.velDim] <;> tauto
  rw [hdim] at key
  rcases key with ⟨h1, h2⟩ | ⟨h1, h2⟩
  · refine ⟨⟨fun _ => h2, fun _ => h1⟩, fun e he => ?_⟩
    obtain ⟨o, ho⟩ := h1
    rw [ho] at he; cases he
  · refine ⟨⟨fun ⟨o, ho⟩ => ?_, fun h => absurd h h2⟩, fun e he => ?_⟩
    · rw [h1] at ho; cases ho
    · rw [h1] at he; exact (Except.error.inj he).symm

/-- Both cases occur. -/
example : (∃ o, DiffObj.new .sph (.ofSI 0 .time) (.ofSI 1 .length) (.ofSI 1 .angle) (.ofSI 1 .angle) (.ofSI 1 .speed)
    (.ofSI 1 .angularSpeed) (.ofSI 1 .angularSpeed) = .ok o) ∧
    ¬ (∃ o, DiffObj.new .sph (.ofSI 0 .time) (.ofSI 1 .length) (.ofSI 1 .angle) (.ofSI 1 .angle) (.ofSI 1 .speed)
    (.ofSI 1 .speed) (.ofSI 1 .angularSpeed) = .ok o) := by
  constructor
  · exact (C79_differential_constructor _ _ _ _ _ _ _ _).1.2 (by simp [Qty.ofSI])
  · intro h
    have := ((C79_differential_constructor _ _ _ _ _ _ _ _).1.1 h).2.2.2.2 (by decide)
    simp [Qty.ofSI] at this

end Einpy.Coord
