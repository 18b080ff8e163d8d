import Verif.Misc.Plot

/-!
# Saving and showing interactive plots (plotting/geodesic/interactive.py:353-385)
-/

namespace Einpy.Misc
open Classical

/-- `s.rfind(c)`: the last position of `c`, `none` for Python's `-1`. -/
def rfind (c : Char) (s : List Char) : Option Nat :=
  (List.range s.length).reverse.find? fun i => s[i]? = some c

/-- Python's `os.path.splitext` on POSIX (genericpath.py `_splitext`): the extension starts at the last dot of the last path component,
unless only dots precede it there. -/
def splitext (p : List Char) : List Char × List Char :=
  match rfind '.' p with
  | none => (p, [])
  | some dot =>
    let start := match rfind '/' p with
      | none => 0
      | some sep => sep + 1
    if start ≤ dot ∧ (List.range' start (dot - start)).any (fun i => p[i]? ≠ some '.') then (p.take dot, p.drop dot)
    else (p, [])

/-- What `plotly.offline.plot(fig, image=…, image_filename=…)` does about the picture (its documentation; the HTML page it also writes
is not modelled): nothing for an empty format, `ValueError` for an unknown one, and otherwise the file `image_filename.image` showing `fig`. -/
def saveplot (fig : Figure) (image filename : List Char) : Py (Option (List Char × Figure)) :=
  if image = [] then .ok none
  else if image ∉ ["png".toList, "jpeg".toList, "svg".toList, "webp".toList] then .error .valueError
  else .ok (some (filename ++ '.' :: image, fig))

/-- interactive.py:372-385 `save(name)`: the picture written. -/
def IPlotter.save (p : IPlotter) (name : List Char) : Py (Option (List Char × Figure)) :=
  let (basename, ext) := splitext name
  saveplot p.fig (ext.drop 1) basename

/-- interactive.py:353-362 `show()` -/
def IPlotter.showFig (p : IPlotter) : Figure := p.fig

/-! ## specification -/

/-- `name` is a file name with extension `e`: a directory (empty or ending in a slash), a stem that does not consist of dots only, a dot,
and an extension without dots and slashes. -/
def HasExtension (name e : List Char) : Prop :=
  ∃ dir stem, name = dir ++ stem ++ '.' :: e ∧ (dir = [] ∨ ∃ d, dir = d ++ ['/']) ∧ '/' ∉ stem ∧ (∃ c ∈ stem, c ≠ '.') ∧
    '.' ∉ e ∧ '/' ∉ e

/-! ## lemmas -/

theorem rfind_none {c : Char} {s : List Char} (h : rfind c s = none) : c ∉ s := by
  unfold rfind at h
  rw [List.find?_eq_none] at h
  intro hc
  obtain ⟨i, hi, e⟩ := List.getElem_of_mem hc
  refine h i (by simpa using hi) ?_
  simp [List.getElem?_eq_getElem hi, e]

theorem rfind_some_of {c : Char} (a b : List Char) (hb : c ∉ b) : rfind c (a ++ c :: b) = some a.length := by
  unfold rfind
  have hlen : (a ++ c :: b).length = (a.length + 1) + b.length := by simp; omega
  rw [hlen, List.range_add, List.reverse_append, List.find?_append]
  have h1 : List.find? (fun i => decide ((a ++ c :: b)[i]? = some c)) (List.map (fun x => a.length + 1 + x) (List.range b.length)).reverse
      = none := by
    rw [List.find?_eq_none]
    intro i hi
    rw [List.mem_reverse, List.mem_map] at hi
    obtain ⟨j, hj, rfl⟩ := hi
    have : (a ++ c :: b)[a.length + 1 + j]? = b[j]? := by
      rw [List.getElem?_append_right (by omega), show a.length + 1 + j - a.length = j + 1 by omega, List.getElem?_cons_succ]
    rw [this]
    simp only [decide_eq_true_eq]
    intro h
    exact hb (List.mem_of_getElem? h)
  rw [h1, List.range_succ, List.reverse_append]
  simp

theorem rfind_some {c : Char} {s : List Char} {i : Nat} (h : rfind c s = some i) :
    ∃ a b, s = a ++ c :: b ∧ a.length = i ∧ c ∉ b := by
  by_cases hc : c ∈ s
  · obtain ⟨a, b, e, hb⟩ : ∃ a b, s = a ++ c :: b ∧ c ∉ b := by
      have := List.eq_append_cons_of_mem (List.mem_reverse.mpr hc)
      obtain ⟨as, bs, e, hn⟩ := this
      refine ⟨bs.reverse, as.reverse, ?_, by simpa using hn⟩
      have := congrArg List.reverse e
      simpa using this
    refine ⟨a, b, e, ?_, hb⟩
    rw [e, rfind_some_of a b hb] at h
    exact Option.some.inj h
  · exfalso
    unfold rfind at h
    have := List.find?_some h
    simp only [decide_eq_true_eq] at this
    exact hc (List.mem_of_getElem? this)

/-- The last path component. -/
theorem split_dir (s : List Char) : ∃ dir last, s = dir ++ last ∧ (dir = [] ∨ ∃ d, dir = d ++ ['/']) ∧ '/' ∉ last ∧
    (match rfind '/' s with
      | none => 0
      | some sep => sep + 1) = dir.length := by
  cases h : rfind '/' s with
  | none => exact ⟨[], s, rfl, Or.inl rfl, rfind_none h, rfl⟩
  | some i =>
    obtain ⟨a, b, e, hl, hb⟩ := rfind_some h
    exact ⟨a ++ ['/'], b, by simp [e], Or.inr ⟨a, rfl⟩, hb, by simp [hl]⟩

theorem splitext_ext {name e : List Char} (h : HasExtension name e) :
    ∃ base, splitext name = (base, '.' :: e) ∧ name = base ++ '.' :: e := by
  obtain ⟨dir, stem, hn, hd, hs, ⟨c, hc, hcd⟩, he1, he2⟩ := h
  refine ⟨dir ++ stem, ?_, hn⟩
  have h1 : rfind '.' name = some (dir ++ stem).length := by rw [hn]; exact rfind_some_of _ _ he1
  have h2 : (match rfind '/' name with
      | none => 0
      | some sep => sep + 1) = dir.length := by
    rcases hd with rfl | ⟨d, rfl⟩
    · have : rfind '/' name = none := by
        cases h : rfind '/' name with
        | none => rfl
        | some i =>
          obtain ⟨a, b, e', -, -⟩ := rfind_some h
          have : '/' ∈ name := by rw [e']; simp
          rw [hn] at this
          simp [hs, he2] at this
      rw [this]; rfl
    · have : name = d ++ '/' :: (stem ++ '.' :: e) := by rw [hn]; simp
      have h3 := rfind_some_of (c := '/') d (stem ++ '.' :: e) (by simp [hs, he2])
      rw [this, h3]
      simp
  unfold splitext
  rw [h1]
  simp only [h2]
  rw [if_pos]
  · rw [hn, List.take_left, List.drop_left]
  · refine ⟨by simp, ?_⟩
    rw [List.any_eq_true]
    obtain ⟨i, hi, rfl⟩ := List.getElem_of_mem hc
    refine ⟨dir.length + i, ?_, ?_⟩
    · rw [List.mem_range']
      refine ⟨i, by simp; omega, by omega⟩
    · rw [hn, List.append_assoc, List.getElem?_append_right (by omega), Nat.add_sub_cancel_left, List.getElem?_append_left hi,
        List.getElem?_eq_getElem hi]
      simpa using hcd

theorem splitext_cases (name : List Char) : (∃ e, HasExtension name e) ∨ splitext name = (name, []) := by
  unfold splitext
  cases h1 : rfind '.' name with
  | none => right; rfl
  | some dot =>
    obtain ⟨a, b, e, hl, hb⟩ := rfind_some h1
    obtain ⟨dir, last, e2, hd, hlast, hst⟩ := split_dir name
    simp only [hst]
    by_cases hcond : dir.length ≤ dot ∧ ((List.range' dir.length (dot - dir.length)).any fun i => name[i]? ≠ some '.') = true
    swap
    · right; rw [if_neg hcond]
    left
    obtain ⟨hle, hany⟩ := hcond
    rw [List.any_eq_true] at hany
    obtain ⟨i, hi, hne⟩ := hany
    rw [List.mem_range'] at hi
    obtain ⟨j, hj, rfl⟩ := hi
    have hpre : dir <+: a := by
      refine List.prefix_of_prefix_length_le (l₃ := name) ⟨last, e2.symm⟩ ⟨'.' :: b, e.symm⟩ (by omega)
    obtain ⟨stem, rfl⟩ := hpre
    have hl2 : last = stem ++ '.' :: b := by
      have := e2.symm.trans e
      rw [List.append_assoc] at this
      exact List.append_cancel_left this
    have hsn : '/' ∉ stem := fun h => hlast (by rw [hl2]; simp [h])
    have hbn : '/' ∉ b := fun h => hlast (by rw [hl2]; simp [h])
    refine ⟨b, dir, stem, e, hd, hsn, ?_, hb, hbn⟩
    have hjl : j < stem.length := by
      rw [List.length_append] at hl
      omega
    refine ⟨stem[j], List.getElem_mem hjl, ?_⟩
    rw [e, List.append_assoc, List.getElem?_append_right (by omega), show dir.length + 1 * j - dir.length = j by omega,
      List.getElem?_append_left hjl, List.getElem?_eq_getElem hjl] at hne
    simpa using hne

theorem no_ext_of {name : List Char} (h : splitext name = (name, [])) (e : List Char) : ¬ HasExtension name e := by
  intro he
  obtain ⟨b, h1, -⟩ := splitext_ext he
  rw [h] at h1
  cases h1

/-! ## theorems -/

/-- **C151** (what is saved).  Whatever has been drawn, `save(name)` of an interactive plotter with a picture extension (png, jpeg,
svg, webp) writes a picture of exactly the figure that `show()` returns, to exactly the file `name`; with any other non-empty extension it
raises ValueError; without an extension no picture is written. -/
theorem C151_save (p : IPlotter) (name : List Char) :
    (∀ e, HasExtension name e → e ∈ ["png".toList, "jpeg".toList, "svg".toList, "webp".toList] →
      p.save name = .ok (some (name, p.showFig))) ∧
    (∀ e, HasExtension name e → e ≠ [] → e ∉ ["png".toList, "jpeg".toList, "svg".toList, "webp".toList] →
      p.save name = .error .valueError) ∧
    ((∀ e, HasExtension name e → e = []) → p.save name = .ok none) := by
  refine ⟨?_, ?_, ?_⟩
  · intro e he hm
    obtain ⟨b, h1, h2⟩ := splitext_ext he
    have hne : e ≠ [] := by rintro rfl; simp at hm
    simp only [IPlotter.save, h1, saveplot, List.drop_one, List.tail_cons, hne, hm, if_false, not_true_eq_false, ← h2, IPlotter.showFig]
  · intro e he hne hm
    obtain ⟨b, h1, h2⟩ := splitext_ext he
    simp only [IPlotter.save, h1, saveplot, List.drop_one, List.tail_cons, hne, hm, if_false, not_false_eq_true, if_true]
  · intro h
    rcases splitext_cases name with ⟨e, he⟩ | h1
    · obtain ⟨b, h1, -⟩ := splitext_ext he
      have := h e he
      subst this
      simp only [IPlotter.save, h1, saveplot, List.drop_one, List.tail_cons, if_true]
    · simp only [IPlotter.save, h1, saveplot, List.drop_nil, if_true]

/-- The extension of a file name is unique. -/
theorem C151_extension_unique {name e e' : List Char} (h : HasExtension name e) (h' : HasExtension name e') : e = e' := by
  obtain ⟨b, h1, -⟩ := splitext_ext h
  obtain ⟨b', h2, -⟩ := splitext_ext h'
  rw [h1] at h2
  cases h2
  rfl

/-- Non-vacuity: "plots/.run.png" has the extension "png", and is saved under this name. -/
example (p : IPlotter) :
    p.save "plots/.run.png".toList = .ok (some ("plots/.run.png".toList, p.showFig)) :=
  (C151_save p _).1 "png".toList
    ⟨"plots/".toList, ".run".toList, by decide, Or.inr ⟨"plots".toList, by decide⟩, by decide, ⟨'r', by decide, by decide⟩,
      by decide, by decide⟩ (by decide)

/-- A name that is a dot file has no extension: no picture. -/
example (p : IPlotter) : p.save "plots/..png".toList = .ok none := by
  refine (C151_save p _).2.2 ?_
  intro e he
  exact absurd he (no_ext_of (by decide) e)

end Einpy.Misc
