import Verif.Misc.Plot

/-!
# `Shadow.smoothen` (C119)

rays/shadow.py:115-125.  `scipy.interpolate.interp1d(x, y, kind="cubic")` is a parameter with the laws of
`IsInterp1d`: it refuses fewer than four nodes and repeated abscissas with ValueError; otherwise it is a function that, if
all ordinates are numbers, gives numbers in the range of the nodes and takes the given values at the nodes, and it raises
ValueError if it is called with a number outside the range of the nodes.
-/

namespace Einpy.Misc
open Einpy.Coord

/-- `np.min` of a list: ValueError for an empty one. -/
noncomputable def npMin : List ℝ → Py ℝ
  | [] => .error .valueError
  | x :: l => .ok (l.foldl min x)

/-- `np.max` of a list: ValueError for an empty one. -/
noncomputable def npMax : List ℝ → Py ℝ
  | [] => .error .valueError
  | x :: l => .ok (l.foldl max x)

/-- `interp1d(x, y, kind="cubic")`: the interpolation object, applied to an array. -/
abbrev Interp1d := List ℝ → List (Py ℝ) → Py (List ℝ → Py (List (Py ℝ)))

/-- The laws of `interp1d(x, y, kind="cubic")`. -/
structure IsInterp1d (interp : Interp1d) : Prop where
  few : ∀ x y, x.length < 4 → interp x y = .error .valueError
  repeated : ∀ x y, ¬ x.Nodup → interp x y = .error .valueError
  ok : ∀ x y, 4 ≤ x.length → x.Nodup → x.length = y.length → ∃ f : ℝ → Py ℝ,
    interp x y = .ok (fun l => if ∀ t ∈ l, (∃ u ∈ x, u ≤ t) ∧ (∃ u ∈ x, t ≤ u) then .ok (l.map f) else .error .valueError) ∧
    ((∀ v ∈ y, ∃ c, v = .ok c) → (∀ t, (∃ u ∈ x, u ≤ t) → (∃ u ∈ x, t ≤ u) → ∃ c, f t = .ok c) ∧
      ∀ i (h : i < x.length) (h' : i < y.length), f x[i] = y[i])

/-- shadow.py:115-125 `smoothen`: the outcome and the object afterwards.  (A negative number of points, refused by
`np.linspace`, is not modelled.) -/
noncomputable def Shadow.smoothen (interp : Interp1d) (sh : Shadow) (points : ℕ) : Py Unit × Shadow :=
  match (do
    let mn ← npMin sh.fb1
    let mx ← npMax sh.fb1
    let b_new := linspace mn mx points
    let interpolation ← interp sh.fb1 sh.intensity
    let smoothened ← interpolation b_new
    return (b_new, smoothened) : Py (List ℝ × List (Py ℝ))) with
  | .ok (b_new, smoothened) =>
    (.ok (), { sh with intensity := smoothened, fb1 := b_new, fb2 := b_new.map fun b => -1 * b })
  | .error e => (.error e, sh)

theorem npMin_spec : ∀ l : List ℝ, l ≠ [] → ∃ m, npMin l = .ok m ∧ m ∈ l ∧ ∀ x ∈ l, m ≤ x := by
  have key : ∀ (l : List ℝ) (x : ℝ), l.foldl min x ∈ x :: l ∧ ∀ y ∈ x :: l, l.foldl min x ≤ y := by
    intro l
    induction l with
    | nil => intro x; simp
    | cons a l ih =>
      intro x
      obtain ⟨h1, h2⟩ := ih (min x a)
      rw [List.foldl_cons]
      constructor
      · rcases List.mem_cons.1 h1 with h | h
        · rw [h]; rcases min_choice x a with e | e <;> rw [e] <;> simp
        · exact List.mem_cons_of_mem _ (List.mem_cons_of_mem _ h)
      · intro y hy
        have h3 := h2 _ List.mem_cons_self
        rcases List.mem_cons.1 hy with rfl | hy
        · exact h3.trans (min_le_left _ _)
        · rcases List.mem_cons.1 hy with rfl | hy
          · exact h3.trans (min_le_right _ _)
          · exact h2 y (List.mem_cons_of_mem _ hy)
  intro l hl
  match l, hl with
  | x :: l, _ => exact ⟨_, rfl, (key l x).1, (key l x).2⟩

theorem npMax_spec : ∀ l : List ℝ, l ≠ [] → ∃ m, npMax l = .ok m ∧ m ∈ l ∧ ∀ x ∈ l, x ≤ m := by
  have key : ∀ (l : List ℝ) (x : ℝ), l.foldl max x ∈ x :: l ∧ ∀ y ∈ x :: l, y ≤ l.foldl max x := by
    intro l
    induction l with
    | nil => intro x; simp
    | cons a l ih =>
      intro x
      obtain ⟨h1, h2⟩ := ih (max x a)
      rw [List.foldl_cons]
      constructor
      · rcases List.mem_cons.1 h1 with h | h
        · rw [h]; rcases max_choice x a with e | e <;> rw [e] <;> simp
        · exact List.mem_cons_of_mem _ (List.mem_cons_of_mem _ h)
      · intro y hy
        have h3 := h2 _ List.mem_cons_self
        rcases List.mem_cons.1 hy with rfl | hy
        · exact (le_max_left _ _).trans h3
        · rcases List.mem_cons.1 hy with rfl | hy
          · exact (le_max_right _ _).trans h3
          · exact h2 y (List.mem_cons_of_mem _ hy)
  intro l hl
  match l, hl with
  | x :: l, _ => exact ⟨_, rfl, (key l x).1, (key l x).2⟩

/-- The outcome when the nodes are acceptable. -/
theorem smoothen_eq {interp : Interp1d} (hi : IsInterp1d interp) {sh : Shadow} (hlen : sh.fb1.length = sh.intensity.length)
    (h4 : 4 ≤ sh.fb1.length) (hnd : sh.fb1.Nodup) : ∃ mn mx, ∃ f : ℝ → Py ℝ,
      (mn ∈ sh.fb1 ∧ ∀ x ∈ sh.fb1, mn ≤ x) ∧ (mx ∈ sh.fb1 ∧ ∀ x ∈ sh.fb1, x ≤ mx) ∧
      ((∀ v ∈ sh.intensity, ∃ c, v = .ok c) → (∀ t, mn ≤ t → t ≤ mx → ∃ c, f t = .ok c) ∧
        ∀ i (h : i < sh.fb1.length) (h' : i < sh.intensity.length), f sh.fb1[i] = sh.intensity[i]) ∧
      ∀ points, sh.smoothen interp points = (.ok (),
        { sh with intensity := (linspace mn mx points).map f, fb1 := linspace mn mx points, fb2 := (linspace mn mx points).map fun b => -1 * b }) := by
  have hne : sh.fb1 ≠ [] := by rintro h; rw [h] at h4; simp at h4
  obtain ⟨mn, e1, m1, l1⟩ := npMin_spec _ hne
  obtain ⟨mx, e2, m2, l2⟩ := npMax_spec _ hne
  obtain ⟨f, ef, hf⟩ := hi.ok sh.fb1 sh.intensity h4 hnd hlen
  refine ⟨mn, mx, f, ⟨m1, l1⟩, ⟨m2, l2⟩, ?_, ?_⟩
  · intro hv
    exact ⟨fun t h1 h2 => (hf hv).1 t ⟨mn, m1, h1⟩ ⟨mx, m2, h2⟩, (hf hv).2⟩
  · intro points
    unfold Shadow.smoothen
    simp only [e1, e2, ef, bind, Except.bind, pure, Except.pure]
    rw [if_pos]
    intro t ht
    have := linspace_mem (l1 _ m2) ht
    exact ⟨⟨mn, m1, this.1⟩, ⟨mx, m2, this.2⟩⟩

/-- The outcome when the nodes are not acceptable. -/
theorem smoothen_error {interp : Interp1d} (hi : IsInterp1d interp) {sh : Shadow}
    (h : sh.fb1.length < 4 ∨ ¬ sh.fb1.Nodup) (points : ℕ) : sh.smoothen interp points = (.error .valueError, sh) := by
  have e : interp sh.fb1 sh.intensity = .error .valueError := h.elim (hi.few _ _) (hi.repeated _ _)
  unfold Shadow.smoothen
  by_cases hne : sh.fb1 = []
  · rw [hne]; rfl
  · obtain ⟨mn, e1, -⟩ := npMin_spec _ hne
    obtain ⟨mx, e2, -⟩ := npMax_spec _ hne
    simp only [e1, e2, e, bind, Except.bind]

/-- **C119.** On any shadow with as many intensities as impact parameters (see `C81_arrays`), `smoothen(points)` succeeds
exactly if there are at least four samples with distinct impact parameters; otherwise it raises ValueError and the object
is as before. -/
theorem C119_outcome {interp : Interp1d} (hi : IsInterp1d interp) {sh : Shadow}
    (hlen : sh.fb1.length = sh.intensity.length) (points : ℕ) :
    ((4 ≤ sh.fb1.length ∧ sh.fb1.Nodup) → (sh.smoothen interp points).1 = .ok ()) ∧
    (¬ (4 ≤ sh.fb1.length ∧ sh.fb1.Nodup) → sh.smoothen interp points = (.error .valueError, sh)) := by
  constructor
  · rintro ⟨h1, h2⟩
    obtain ⟨mn, mx, f, -, -, -, h⟩ := smoothen_eq hi hlen h1 h2
    rw [h]
  · intro h
    refine smoothen_error hi ?_ points
    by_cases h1 : 4 ≤ sh.fb1.length
    · exact Or.inr fun h2 => h ⟨h1, h2⟩
    · exact Or.inl (by omega)

/-- **C119.** After a successful `smoothen(points)` the impact parameters are `points` equally spaced numbers from the
least to the greatest of the old ones, the other half of the picture is their mirror image, there are as many intensities;
if the old intensities were numbers so are the new ones, and a sample at an old impact parameter has the old
intensity.  Nothing else of the object changes. -/
theorem C119_samples {interp : Interp1d} (hi : IsInterp1d interp) {sh sh' : Shadow}
    (hlen : sh.fb1.length = sh.intensity.length) {points : ℕ} (h : sh.smoothen interp points = (.ok (), sh')) :
    (∃ mn mx, IsLeast {x | x ∈ sh.fb1} mn ∧ IsGreatest {x | x ∈ sh.fb1} mx ∧
      sh'.fb1.length = points ∧ sh'.fb2.length = points ∧ sh'.intensity.length = points ∧
      (∀ i : ℕ, i < points → sh'.fb1[i]? = some (mn + i * ((mx - mn) / ((points:ℝ) - 1))))) ∧
    (∀ (i : ℕ) (b : ℝ), sh'.fb1[i]? = some b → sh'.fb2[i]? = some (-b)) ∧
    ((∀ v ∈ sh.intensity, ∃ c, v = .ok c) → (∀ v ∈ sh'.intensity, ∃ c, v = .ok c) ∧
      ∀ (i j : ℕ) (b : ℝ), sh.fb1[i]? = some b → sh'.fb1[j]? = some b → sh'.intensity[j]? = sh.intensity[i]?) ∧
    sh'.M = sh.M ∧ sh'.fov = sh.fov ∧ sh'.b = sh.b ∧ sh'.z = sh.z ∧ sh'.bfin = sh.bfin ∧ sh'.b2 = sh.b2 := by
  have hh : 4 ≤ sh.fb1.length ∧ sh.fb1.Nodup := by
    by_contra hc
    rw [(C119_outcome hi hlen points).2 hc] at h
    cases h
  obtain ⟨mn, mx, f, h1, h2, h3, h4⟩ := smoothen_eq hi hlen hh.1 hh.2
  rw [h4] at h
  have e := (Prod.mk.inj h).2
  subst e
  refine ⟨⟨mn, mx, ⟨h1.1, fun x hx => h1.2 x hx⟩, ⟨h2.1, fun x hx => h2.2 x hx⟩, linspace_length _ _ _, by simp [linspace_length],
    by simp [linspace_length], ?_⟩, ?_, ?_, rfl, rfl, rfl, rfl, rfl, rfl⟩
  · intro i hp
    by_cases hp1 : points = 1
    · subst hp1
      have : i = 0 := by omega
      subst this
      simp [linspace]
    · exact linspace_get hp1 hp
  · intro i b hb
    show ((linspace mn mx points).map _)[i]? = _
    rw [List.getElem?_map, hb]
    simp
  · intro hv
    obtain ⟨k1, k2⟩ := h3 hv
    constructor
    · intro v hvm
      obtain ⟨t, ht, rfl⟩ := List.mem_map.1 hvm
      have := linspace_mem (h1.2 _ h2.1) ht
      exact k1 t this.1 this.2
    · intro i j b hb hb'
      show ((linspace mn mx points).map f)[j]? = _
      rw [List.getElem?_map, hb']
      obtain ⟨hil, rfl⟩ := List.getElem?_eq_some_iff.1 hb
      rw [Option.map_some, k2 i hil (by rw [← hlen]; exact hil), List.getElem?_eq_getElem]

theorem linspace_nodup {a b : ℝ} (hab : a ≠ b) (n : ℕ) : (linspace a b n).Nodup := by
  unfold linspace
  split_ifs with h
  · exact List.nodup_singleton _
  · by_cases h2 : n = 0
    · subst h2; exact List.nodup_nil
    · refine List.Nodup.map ?_ List.nodup_range
      intro i j hij
      have hn : (n:ℝ) - 1 ≠ 0 := by
        intro e
        have : (n:ℝ) = 1 := by linarith
        exact h (by exact_mod_cast this)
      have hba : b - a ≠ 0 := sub_ne_zero.2 (Ne.symm hab)
      have h3 : ((i:ℝ) - j) * ((b - a) / ((n:ℝ) - 1)) = 0 := by
        have : a + (i:ℝ) * ((b - a) / ((n:ℝ) - 1)) = a + (j:ℝ) * ((b - a) / ((n:ℝ) - 1)) := hij
        linear_combination this
      rcases mul_eq_zero.1 h3 with h4 | h4
      · exact_mod_cast sub_eq_zero.1 h4
      · exact absurd h4 (div_ne_zero hba hn)

/-- **C119.** Smoothing a second time with the same number of points changes nothing (four points or more, and
intensities that are numbers). -/
theorem C119_idempotent {interp : Interp1d} (hi : IsInterp1d interp) {sh sh' : Shadow}
    (hlen : sh.fb1.length = sh.intensity.length) (hv : ∀ v ∈ sh.intensity, ∃ c, v = .ok c)
    {points : ℕ} (hp : 4 ≤ points) (h : sh.smoothen interp points = (.ok (), sh')) :
    sh'.smoothen interp points = (.ok (), sh') := by
  have hh : 4 ≤ sh.fb1.length ∧ sh.fb1.Nodup := by
    by_contra hc
    rw [(C119_outcome hi hlen points).2 hc] at h
    cases h
  obtain ⟨mn, mx, f, h1, h2, h3, h4⟩ := smoothen_eq hi hlen hh.1 hh.2
  rw [h4] at h
  have e := (Prod.mk.inj h).2
  obtain ⟨k1, k2⟩ := h3 hv
  have hne : mn ≠ mx := by
    rintro rfl
    have hall : ∀ x ∈ sh.fb1, x = mn := fun x hx => le_antisymm (h2.2 x hx) (h1.2 x hx)
    have e0 := hall _ (List.getElem_mem (show 0 < sh.fb1.length by omega))
    have e1 := hall _ (List.getElem_mem (show 1 < sh.fb1.length by omega))
    have := (List.Nodup.getElem_inj_iff hh.2).1 (e0.trans e1.symm)
    omega
  have hlt : mn < mx := lt_of_le_of_ne (h1.2 _ h2.1) hne
  have hf1 : sh'.fb1 = linspace mn mx points := by rw [← e]
  have hint : sh'.intensity = (linspace mn mx points).map f := by rw [← e]
  have hlen' : sh'.fb1.length = sh'.intensity.length := by rw [hf1, hint, List.length_map]
  obtain ⟨mn', mx', f', h1', h2', h3', h4'⟩ := smoothen_eq hi hlen' (by rw [hf1, linspace_length]; exact hp)
    (by rw [hf1]; exact linspace_nodup hne _)
  obtain ⟨k1', k2'⟩ := h3' (by
    intro v hvm
    rw [hint] at hvm
    obtain ⟨t, ht, rfl⟩ := List.mem_map.1 hvm
    have := linspace_mem hlt.le ht
    exact k1 t this.1 this.2)
  have p1 : (points:ℝ) - 1 ≠ 0 := by
    have : (4:ℝ) ≤ points := by exact_mod_cast hp
    intro h0; linarith
  have a1 : mn ∈ linspace mn mx points := by
    refine List.mem_of_getElem? (i := 0) ?_
    rw [linspace_get (by omega) (by omega)]; simp
  have a2 : mx ∈ linspace mn mx points := by
    refine List.mem_of_getElem? (i := points - 1) ?_
    rw [linspace_get (by omega) (by omega), Nat.cast_sub (by omega)]
    congr 1; push_cast; field_simp; ring
  rw [hf1] at h1' h2'
  have b1 : mn' = mn := le_antisymm (h1'.2 _ a1) (linspace_mem hlt.le h1'.1).1
  have b2 : mx' = mx := le_antisymm (linspace_mem hlt.le h2'.1).2 (h2'.2 _ a2)
  subst b1 b2
  rw [h4']
  have hff : (linspace mn' mx' points).map f' = (linspace mn' mx' points).map f := by
    refine List.ext_getElem (by simp) ?_
    intro i hi1 hi2
    have hi3 : i < sh'.fb1.length := by rw [hf1]; simpa using hi1
    have := k2' i hi3 (by rw [← hlen']; exact hi3)
    simp only [hf1, hint, List.getElem_map] at this ⊢
    exact this
  rw [hff, ← e]

/-- **C119, which shadows can be smoothed.** For a shadow made by the constructor with the inner limit below the critical
impact parameter and the field of view above it, `smoothen` succeeds exactly if at least two rays were kept and the
critical ray was not among them.
(Missing from the claim: the shadows whose critical ray was kept, see `C119_refuted`.) -/
theorem C119_succeeds_partial {interp : Interp1d} (hi : IsInterp1d interp) {newton : ℝ → Py ℂ} {q : Rule}
    {M fov limit : ℝ} {n : ℕ} {sh : Shadow} (h : Shadow.new newton q M n fov limit = .ok sh)
    (hlim : limit < bCrit M) (hfov : bCrit M < fov) (points : ℕ) :
    (sh.smoothen interp points).1 = .ok () ↔ 2 ≤ sh.bfin.length ∧ bCrit M ∉ sh.bfin := by
  obtain ⟨hl, -, hl2, -, -, ⟨root, -, hbf, -⟩, hrange⟩ := C81_arrays h
  have hb : sh.b = linspace (bCrit M) fov n ∧ sh.b2 = linspace limit (bCrit M) sh.bfin.length ∧ sh.fb1 = sh.b2 ++ sh.bfin := by
    unfold Shadow.new at h
    simp only [bind, Except.bind, pure, Except.pure] at h
    split at h
    · cases h
    · cases h; exact ⟨rfl, rfl, rfl⟩
  obtain ⟨hb0, hb2, hfb⟩ := hb
  have hout := C119_outcome hi hl.symm points
  have hiff : (sh.smoothen interp points).1 = .ok () ↔ (4 ≤ sh.fb1.length ∧ sh.fb1.Nodup) := by
    constructor
    · intro h1
      by_contra hc
      rw [hout.2 hc] at h1
      cases h1
    · exact hout.1
  rw [hiff]
  have hnb : sh.bfin.Nodup := by
    rw [hbf]; exact List.Nodup.filter _ (hb0 ▸ linspace_nodup hfov.ne n)
  have hge : ∀ b ∈ sh.bfin, bCrit M ≤ b := by
    intro b hbm
    rw [hbf] at hbm
    exact (hrange hfov.le b (List.mem_of_mem_filter hbm)).1
  constructor
  · rintro ⟨h1, h2⟩
    have h3 : 2 ≤ sh.bfin.length := by omega
    refine ⟨h3, fun hc => ?_⟩
    rw [hfb, List.nodup_append] at h2
    refine h2.2.2 (bCrit M) ?_ _ hc rfl
    rw [hb2]
    refine List.mem_of_getElem? (i := sh.bfin.length - 1) ?_
    rw [linspace_get (by omega) (by omega), Nat.cast_sub (by omega)]
    have : ((sh.bfin.length:ℕ):ℝ) - 1 ≠ 0 := by
      have : (2:ℝ) ≤ (sh.bfin.length:ℕ) := by exact_mod_cast h3
      intro h0; linarith
    congr 1; push_cast; field_simp; ring
  · rintro ⟨h1, h2⟩
    refine ⟨by omega, ?_⟩
    rw [hfb, List.nodup_append]
    refine ⟨hb2 ▸ linspace_nodup hlim.ne _, hnb, ?_⟩
    intro a ha b hbm hab
    subst hab
    rw [hb2] at ha
    have := (linspace_mem hlim.le ha).2
    exact h2 (le_antisymm (hge a hbm) this ▸ hbm)

/-- **C119 is violated.** If the root finder answers for the first ray — the critical one, whose turning point is the
photon sphere — with a real number, as it should, the shadow cannot be smoothed: the critical impact parameter is
listed twice. -/
theorem C119_refuted {interp : Interp1d} (hi : IsInterp1d interp) {newton : ℝ → Py ℂ} {q : Rule}
    {M fov limit : ℝ} {n : ℕ} {sh : Shadow} (h : Shadow.new newton q M n fov limit = .ok sh)
    (hlim : limit < bCrit M) (hfov : bCrit M < fov) (hn : 1 ≤ n) {w : ℂ} (hw : newton (bCrit M) = .ok w) (hw0 : w.im = 0)
    (points : ℕ) : sh.smoothen interp points = (.error .valueError, sh) := by
  obtain ⟨hl, -, -, -, hbl, ⟨root, hroot, hbf, -⟩, -⟩ := C81_arrays h
  have hb0 : sh.b = linspace (bCrit M) fov n := by
    unfold Shadow.new at h
    simp only [bind, Except.bind, pure, Except.pure] at h
    split at h
    · cases h
    · cases h; rfl
  have hmem : bCrit M ∈ sh.b := by
    rw [hb0]
    by_cases h1 : n = 1
    · subst h1; simp [linspace]
    · refine List.mem_of_getElem? (i := 0) ?_
      rw [linspace_get h1 (by omega)]; simp
  have hk : bCrit M ∈ sh.bfin := by
    rw [hbf, List.mem_filter]
    refine ⟨hmem, ?_⟩
    have : root (bCrit M) = w := Except.ok.inj ((hroot _ hmem).symm.trans hw)
    rw [this, hw0]; simp
  refine (C119_outcome hi hl.symm points).2 fun hc => ?_
  exact ((C119_succeeds_partial hi h hlim hfov points).1 ((C119_outcome hi hl.symm points).1 hc)).2 hk

/-- There is an interpolation with these laws (here: the node's value, and 0 between the nodes). -/
theorem exists_interp1d : ∃ interp, IsInterp1d interp := by
  classical
  refine ⟨fun x y => if x.length < 4 ∨ ¬ x.Nodup then .error .valueError else
    .ok (fun l => if ∀ t ∈ l, (∃ u ∈ x, u ≤ t) ∧ (∃ u ∈ x, t ≤ u) then
      .ok (l.map fun t => if t ∈ x then y.getD (x.idxOf t) (.ok 0) else .ok 0) else .error .valueError), ?_, ?_, ?_⟩
  · intro x y h; exact if_pos (Or.inl h)
  · intro x y h; exact if_pos (Or.inr h)
  · intro x y h1 h2 h3
    refine ⟨_, if_neg ?_, ?_⟩
    · rintro (h | h)
      · omega
      · exact h h2
    · intro hv
      constructor
      · intro t _ _
        by_cases ht : t ∈ x
        · rw [if_pos ht]
          have hlt : x.idxOf t < y.length := by rw [← h3]; exact List.idxOf_lt_length_iff.2 ht
          rw [List.getD_eq_getElem?_getD, List.getElem?_eq_getElem hlt]
          exact hv _ (List.getElem_mem hlt)
        · exact ⟨0, if_neg ht⟩
      · intro i h h'
        rw [if_pos (List.getElem_mem h), h2.idxOf_getElem i h, List.getD_eq_getElem?_getD, List.getElem?_eq_getElem h']
        rfl

/-- Both cases of `C119_succeeds_partial` occur: a root finder that loses only the critical ray, and one that does not. -/
example {interp : Interp1d} (hi : IsInterp1d interp) (q : Rule) :
    (∃ sh, Shadow.new (fun b => .ok (if b = bCrit 1 then Complex.I else 4)) q 1 3 10 0.001 = .ok sh ∧
      (sh.smoothen interp 500).1 = .ok ()) ∧
    (∃ sh, Shadow.new (fun _ => .ok 4) q 1 3 10 0.001 = .ok sh ∧ (sh.smoothen interp 500).1 = .error .valueError) := by
  have hs3 : Real.sqrt 3 < 2 := by rw [Real.sqrt_lt' (by norm_num)]; norm_num
  have hs1 : 1 < Real.sqrt 3 := by rw [Real.lt_sqrt (by norm_num)]; norm_num
  have hlo : (0.001:ℝ) < bCrit 1 := by unfold bCrit; nlinarith
  have hhi : bCrit 1 < 10 := by unfold bCrit; nlinarith
  have hL : linspace (bCrit 1) 10 3 = [bCrit 1, bCrit 1 + (10 - bCrit 1) / 2, 10] := by
    unfold linspace
    rw [if_neg (by norm_num)]
    simp [List.range_succ]
    constructor
    · ring
    · ring
  have ne1 : bCrit 1 + (10 - bCrit 1) / 2 ≠ bCrit 1 := by intro h; linarith
  have ne2 : (10:ℝ) ≠ bCrit 1 := hhi.ne'
  constructor
  · have e : turningPoints (fun b => .ok (if b = bCrit 1 then Complex.I else 4)) (linspace (bCrit 1) 10 3) =
        .ok [(bCrit 1 + (10 - bCrit 1) / 2, 4), (10, 4)] := by
      rw [hL]
      simp [turningPoints, bind, Except.bind, pure, Except.pure, ne2, sub_eq_zero]
    have hsh : ∃ sh, Shadow.new (fun b => .ok (if b = bCrit 1 then Complex.I else 4)) q 1 3 10 0.001 = .ok sh ∧
        sh.bfin = [bCrit 1 + (10 - bCrit 1) / 2, 10] := by
      unfold Shadow.new
      simp only [e, bind, Except.bind, pure, Except.pure]
      exact ⟨_, rfl, rfl⟩
    obtain ⟨sh, h1, h2⟩ := hsh
    refine ⟨sh, h1, (C119_succeeds_partial hi h1 hlo hhi 500).2 ?_⟩
    rw [h2]
    refine ⟨le_rfl, ?_⟩
    simp only [List.mem_cons, List.not_mem_nil, or_false, not_or]
    exact ⟨ne1.symm, ne2.symm⟩
  · have e : turningPoints (fun _ => .ok 4) (linspace (bCrit 1) 10 3) =
        .ok [(bCrit 1, 4), (bCrit 1 + (10 - bCrit 1) / 2, 4), (10, 4)] := by
      rw [hL]
      simp [turningPoints, bind, Except.bind, pure, Except.pure]
    have hsh : ∃ sh, Shadow.new (fun _ => .ok 4) q 1 3 10 0.001 = .ok sh := by
      unfold Shadow.new
      simp only [e, bind, Except.bind, pure, Except.pure]
      exact ⟨_, rfl⟩
    obtain ⟨sh, h1⟩ := hsh
    refine ⟨sh, h1, ?_⟩
    rw [C119_refuted hi h1 hlo hhi (by norm_num) (w := 4) rfl (by simp) 500]

end Einpy.Misc
