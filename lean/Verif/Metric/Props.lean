import Verif.Metric.Model
import Verif.Tensor.Props3

/-!
# Property C09: the inverse cache of metric objects is invisible
-/

namespace Einpy
open Classical

section
variable {R : Type*} [CommRing R]

/-! ## specification -/

/-- Two metric values the user cannot tell apart (names aside): same configuration, symbols, shape
and components. -/
def SameVal (v w : MetricV R) : Prop :=
  v.config = w.config ∧ v.syms = w.syms ∧ v.arr.shape = w.arr.shape ∧
    (v = w ∨ ∃ n, v.arr.shape = [n, n] ∧ v.arr.toMatrix n = w.arr.toMatrix n)

/-- The heap operation `r` gives what the cache-free definition `p` gives: the same exception, or
an object with that value. -/
def Matches (r : Py Nat × Heap R) (p : Py (MetricV R)) : Prop :=
  match r.1, p with
  | .ok b, .ok v => ∃ o, r.2[b]? = some o ∧ SameVal o.val v
  | .error e, .error e' => e = e'
  | _, _ => False

/-- All metrics constructed by the user in the history are covariant or contravariant. -/
def RootsPure (hist : List (MOp R)) : Prop :=
  ∀ v, MOp.new v ∈ hist → v.config = ['l', 'l'] ∨ v.config = ['u', 'u']

/-! ## invariant -/

def flipCfg (c : Config) : Config := if c = ['l', 'l'] then ['u', 'u'] else ['l', 'l']

/-- A filled cache points to the inverse. -/
def LinkOK (H : Heap R) (o : MObj R) : Prop :=
  ∀ b, o.invmetric = some b → ∃ (o' : MObj R) (n : Nat), H[b]? = some o' ∧
    o'.val.config = flipCfg o.val.config ∧ o'.val.syms = o.val.syms ∧
    o.val.arr.shape = [n, n] ∧ o'.val.arr.shape = [n, n] ∧
    IsUnit (o.val.arr.toMatrix n).det ∧ o'.val.arr.toMatrix n = (o.val.arr.toMatrix n)⁻¹

def HeapInv (H : Heap R) : Prop :=
  ∀ (a : Nat) (o : MObj R), H[a]? = some o → (o.val.config = ['l', 'l'] ∨ o.val.config = ['u', 'u']) ∧ LinkOK H o

/-- `H'` extends `H` without changing the value of any object. -/
def Extends (H H' : Heap R) : Prop :=
  ∀ (a : Nat) (o : MObj R), H[a]? = some o → ∃ o' : MObj R, H'[a]? = some o' ∧ o'.val = o.val

theorem Extends.refl (H : Heap R) : Extends H H := fun _ o h => ⟨o, h, rfl⟩

theorem Extends.trans {H1 H2 H3 : Heap R} (h : Extends H1 H2) (h' : Extends H2 H3) :
    Extends H1 H3 := by
  intro a o ho
  obtain ⟨o', h1, e1⟩ := h a o ho
  obtain ⟨o'', h2, e2⟩ := h' a o' h1
  exact ⟨o'', h2, e2.trans e1⟩

theorem LinkOK.mono {H H' : Heap R} (he : Extends H H') {o : MObj R} (h : LinkOK H o) :
    LinkOK H' o := by
  intro b hb
  obtain ⟨o', n, h1, h2, h3, h4, h5, h6, h7⟩ := h b hb
  obtain ⟨o'', k1, k2⟩ := he b o' h1
  exact ⟨o'', n, k1, by rw [k2]; exact h2, by rw [k2]; exact h3, h4, by rw [k2]; exact h5, h6,
    by rw [k2]; exact h7⟩

theorem extends_append (H : Heap R) (x : MObj R) : Extends H (H ++ [x]) := by
  intro a o h
  have hlt : a < H.length := by
    by_contra hc
    rw [List.getElem?_eq_none (by omega)] at h; cases h
  exact ⟨o, by rw [List.getElem?_append_left hlt]; exact h, rfl⟩

theorem getElem?_append_cases (H : Heap R) (x o : MObj R) (a : Nat)
    (h : (H ++ [x])[a]? = some o) : H[a]? = some o ∨ (a = H.length ∧ o = x) := by
  by_cases hlt : a < H.length
  · left; rwa [List.getElem?_append_left hlt] at h
  · right
    rw [List.getElem?_append_right (by omega)] at h
    have : a - H.length = 0 := by
      by_contra hc
      rw [List.getElem?_eq_none (by simp; omega)] at h; cases h
    rw [this] at h
    simp at h
    exact ⟨by omega, h.symm⟩

theorem arr_inv_cases (arr : NDArr R) :
    (∃ e, arr.inv = .error e) ∨ ∃ n, arr.shape = [n, n] ∧ IsUnit (arr.toMatrix n).det ∧
      arr.inv = .ok (NDArr.ofMatrix (arr.toMatrix n)⁻¹) := by
  unfold NDArr.inv
  split
  · split_ifs with h1 h2
    · right; subst h1; exact ⟨_, by assumption, h2, rfl⟩
    · left; exact ⟨_, rfl⟩
    · left; exact ⟨_, rfl⟩
  · left; exact ⟨_, rfl⟩

theorem changeConfig_inv (H : Heap R) (hH : HeapInv H) (a : Nat) (nc : Config) :
    HeapInv (heapChangeConfig H a nc).2 ∧ Extends H (heapChangeConfig H a nc).2 := by
  unfold heapChangeConfig
  cases ha : H[a]? with
  | none => exact ⟨hH, Extends.refl H⟩
  | some o =>
    simp only
    split_ifs with h1 h2
    · exact ⟨hH, Extends.refl H⟩
    · rcases arr_inv_cases o.val.arr with ⟨e, he⟩ | ⟨n, hs, hu, hi⟩
      · rw [he]; exact ⟨hH, Extends.refl H⟩
      · rw [hi]
        refine ⟨?_, extends_append _ _⟩
        intro b ob hb
        rcases getElem?_append_cases _ _ _ _ hb with hb | ⟨rfl, rfl⟩
        · exact ⟨(hH b ob hb).1, (hH b ob hb).2.mono (extends_append _ _)⟩
        · refine ⟨?_, ?_⟩
          · rcases h2 with h | h
            · exact Or.inr h
            · exact Or.inl h
          · intro b hb
            simp only [Option.some.injEq] at hb
            subst hb
            obtain ⟨o', ho', hov⟩ := extends_append H _ a o ha
            refine ⟨o', n, ho', ?_, by rw [hov], rfl, by rw [hov]; exact hs, ?_, ?_⟩
            · rw [hov]
              rcases (hH a o ha).1 with hc | hc <;> rw [hc] at h1 ⊢ <;>
                rcases h2 with rfl | rfl <;> simp [flipCfg] at h1 ⊢
            · rw [toMatrix_ofMatrix]; exact inv_det_unit hu
            · rw [hov, toMatrix_ofMatrix, Matrix.nonsing_inv_nonsing_inv _ hu]
    · exact ⟨hH, Extends.refl H⟩

theorem getElem?_modify (H : Heap R) (a b : Nat) (f : MObj R → MObj R) :
    (H.modify a f)[b]? = if a = b then H[b]?.map f else H[b]? := by
  rw [List.getElem?_modify]
  split_ifs <;> simp

theorem inv_inv' (H : Heap R) (hH : HeapInv H) (a : Nat) :
    HeapInv (heapInv H a).2 ∧ Extends H (heapInv H a).2 := by
  unfold heapInv
  cases ha : H[a]? with
  | none => exact ⟨hH, Extends.refl H⟩
  | some o =>
    simp only
    cases hc : o.invmetric with
    | some b => exact ⟨hH, Extends.refl H⟩
    | none =>
      simp only
      set nc : Config := if o.val.config = ['l', 'l'] then ['u', 'u'] else ['l', 'l'] with hnc
      have hcfg := (hH a o ha).1
      have hne : nc ≠ o.val.config := by
        rcases hcfg with h | h <;> rw [hnc, h] <;> simp
      have hul : nc = ['u', 'u'] ∨ nc = ['l', 'l'] := by
        rw [hnc]; split_ifs <;> simp
      rcases arr_inv_cases o.val.arr with ⟨e, he⟩ | ⟨n, hs, hu, hi⟩
      · have : heapChangeConfig H a nc = (.error e, H) := by
          unfold heapChangeConfig; rw [ha]; simp only [if_neg hne, if_pos hul, he]
        rw [this]; exact ⟨hH, Extends.refl H⟩
      · obtain ⟨hinv1, hext1⟩ := changeConfig_inv H hH a nc
        have hcc : heapChangeConfig H a nc = (.ok H.length,
          H ++ [⟨⟨NDArr.ofMatrix (o.val.arr.toMatrix n)⁻¹, nc, o.val.syms,
            changeName o.val.name ("__" ++ String.ofList nc)⟩, some a⟩]) := by
          unfold heapChangeConfig; rw [ha]; simp only [if_neg hne, if_pos hul, hi]
        rw [hcc] at hinv1 hext1 ⊢
        simp only at hinv1 hext1 ⊢
        set x : MObj R := ⟨⟨NDArr.ofMatrix (o.val.arr.toMatrix n)⁻¹, nc, o.val.syms,
            changeName o.val.name ("__" ++ String.ofList nc)⟩, some a⟩ with hx
        have hmod : Extends (H ++ [x])
            ((H ++ [x]).modify a fun o => { o with invmetric := some H.length }) := by
          intro b ob hb
          rw [getElem?_modify]
          split_ifs
          · rw [hb]; exact ⟨_, rfl, rfl⟩
          · exact ⟨ob, hb, rfl⟩
        refine ⟨?_, hext1.trans hmod⟩
        intro b ob hb
        rw [getElem?_modify] at hb
        split_ifs at hb with hab
        · subst hab
          obtain ⟨o1, ho1, he1⟩ := Option.map_eq_some_iff.mp hb
          have ho1' : o1 = o := by
            rcases getElem?_append_cases _ _ _ _ ho1 with h | ⟨h, -⟩
            · rw [ha] at h; exact (Option.some.inj h).symm
            · exfalso
              rw [List.getElem?_eq_none (by omega)] at ha; cases ha
          subst ho1'
          subst he1
          refine ⟨hcfg, ?_⟩
          intro b hb
          simp only [Option.some.injEq] at hb
          subst hb
          obtain ⟨x', hx', hxv⟩ := hmod H.length x (by simp)
          refine ⟨x', n, hx', ?_, ?_, hs, ?_, hu, ?_⟩
          · rw [hxv]; rfl
          · rw [hxv]
          · rw [hxv]; rfl
          · rw [hxv, hx, toMatrix_ofMatrix]
        · exact ⟨(hinv1 b ob hb).1, (hinv1 b ob hb).2.mono hmod⟩

theorem lower_inv (H : Heap R) (hH : HeapInv H) (a : Nat) :
    HeapInv (heapLower H a).2 ∧ Extends H (heapLower H a).2 := by
  unfold heapLower
  cases H[a]? with
  | none => exact ⟨hH, Extends.refl H⟩
  | some o =>
    simp only
    split_ifs
    · exact ⟨hH, Extends.refl H⟩
    · exact inv_inv' H hH a

theorem step_inv (H : Heap R) (hH : HeapInv H) (op : MOp R)
    (hop : ∀ v, op = .new v → v.config = ['l', 'l'] ∨ v.config = ['u', 'u']) :
    HeapInv (op.step H).2 ∧ Extends H (op.step H).2 := by
  cases op with
  | new v =>
    refine ⟨?_, extends_append _ _⟩
    intro b ob hb
    rcases getElem?_append_cases _ _ _ _ hb with hb | ⟨rfl, rfl⟩
    · exact ⟨(hH b ob hb).1, (hH b ob hb).2.mono (extends_append _ _)⟩
    · exact ⟨hop v rfl, by intro b hb; cases hb⟩
  | changeConfig a nc => exact changeConfig_inv H hH a nc
  | inv a => exact inv_inv' H hH a
  | lowerConfig a => exact lower_inv H hH a

theorem run_inv (hist : List (MOp R)) : ∀ (H : Heap R), HeapInv H → RootsPure hist →
    HeapInv (runHist H hist) ∧ Extends H (runHist H hist) := by
  induction hist with
  | nil => intro H hH _; exact ⟨hH, Extends.refl H⟩
  | cons op rest ih =>
    intro H hH hp
    obtain ⟨h1, h2⟩ := step_inv H hH op (fun v hv => hp v (by rw [hv]; exact List.mem_cons_self))
    obtain ⟨h3, h4⟩ := ih (op.step H).2 h1 (fun v hv => hp v (List.mem_cons_of_mem _ hv))
    exact ⟨h3, h2.trans h4⟩

theorem heapInv_nil : HeapInv ([] : Heap R) := by intro a o h; simp at h

/-! ## matching with the cache-free definition -/

theorem SameVal.refl (v : MetricV R) : SameVal v v := ⟨rfl, rfl, rfl, Or.inl rfl⟩

theorem changeConfig_matches (H : Heap R) (a : Nat) (o : MObj R) (ha : H[a]? = some o)
    (nc : Config) : Matches (heapChangeConfig H a nc) (o.val.changeConfig nc) := by
  unfold heapChangeConfig MetricV.changeConfig Matches
  rw [ha]
  simp only
  split_ifs with h1 h2
  · exact ⟨o, ha, SameVal.refl _⟩
  · cases hi : o.val.arr.inv with
    | error e => simp [bind, Except.bind]
    | ok arr =>
      simp only [bind, Except.bind, pure, Except.pure]
      exact ⟨⟨_, some a⟩, by simp, SameVal.refl _⟩
  · rfl

theorem inv_matches (H : Heap R) (hH : HeapInv H) (a : Nat) (o : MObj R) (ha : H[a]? = some o) :
    Matches (heapInv H a) o.val.inv := by
  have hcfg := (hH a o ha).1
  have hinvdef : o.val.inv = o.val.changeConfig
      (if o.val.config = ['l', 'l'] then ['u', 'u'] else ['l', 'l']) := by
    unfold MetricV.inv; split_ifs <;> rfl
  cases hc : o.invmetric with
  | some b =>
    obtain ⟨o', n, h1, h2, h3, h4, h5, h6, h7⟩ := (hH a o ha).2 b hc
    have hne : flipCfg o.val.config ≠ o.val.config := by
      rcases hcfg with h | h <;> rw [h] <;> simp [flipCfg]
    have hul : flipCfg o.val.config = ['u', 'u'] ∨ flipCfg o.val.config = ['l', 'l'] := by
      unfold flipCfg; split_ifs <;> simp
    have hp : o.val.inv = .ok ⟨NDArr.ofMatrix (o.val.arr.toMatrix n)⁻¹, flipCfg o.val.config,
        o.val.syms, changeName o.val.name ("__" ++ String.ofList (flipCfg o.val.config))⟩ := by
      rw [hinvdef]
      show o.val.changeConfig (flipCfg o.val.config) = _
      unfold MetricV.changeConfig
      rw [if_neg hne, if_pos hul, NDArr.inv_ok o.val.arr h4 h6]
      rfl
    unfold heapInv Matches
    rw [ha, hp]
    simp only [hc]
    exact ⟨o', h1, h2, h3, h5, Or.inr ⟨n, h5, by rw [h7, toMatrix_ofMatrix]⟩⟩
  | none =>
    have hm := changeConfig_matches H a o ha
      (if o.val.config = ['l', 'l'] then ['u', 'u'] else ['l', 'l'])
    rw [← hinvdef] at hm
    unfold heapInv
    rw [ha]
    simp only [hc]
    revert hm
    generalize heapChangeConfig H a
      (if o.val.config = ['l', 'l'] then ['u', 'u'] else ['l', 'l']) = r
    obtain ⟨r1, H'⟩ := r
    unfold Matches
    cases r1 with
    | error e => exact id
    | ok b =>
      cases o.val.inv with
      | error e => exact id
      | ok v =>
        rintro ⟨o', h1, h2⟩
        simp only [getElem?_modify]
        split_ifs
        · rw [h1]; exact ⟨_, rfl, h2⟩
        · exact ⟨o', h1, h2⟩

/-! ## theorems -/

/-- **C09** (refinement).  After any history of constructor, `change_config`, `inv` and `lower_config`
calls, each of the three methods called on any existing object gives the object (or the exception)
that the cache-free definitions of `Verif/Tensor/Model.lean` give. -/
theorem C09_cache_invisible (hist : List (MOp R)) (hroots : RootsPure hist) (a : Nat) (o : MObj R)
    (ha : (runHist [] hist)[a]? = some o) :
    (∀ nc, Matches (heapChangeConfig (runHist [] hist) a nc) (o.val.changeConfig nc)) ∧
    Matches (heapInv (runHist [] hist) a) o.val.inv ∧
    Matches (heapLower (runHist [] hist) a) o.val.lowerConfig := by
  obtain ⟨hH, -⟩ := run_inv hist [] heapInv_nil hroots
  refine ⟨fun nc => changeConfig_matches _ a o ha nc, inv_matches _ hH a o ha, ?_⟩
  unfold heapLower MetricV.lowerConfig
  rw [ha]
  simp only
  split_ifs with h
  · exact ⟨o, ha, SameVal.refl _⟩
  · exact inv_matches _ hH a o ha

/-- **C09** (values are immutable).  No later operation changes configuration, components, symbols or
name of an existing object. -/
theorem C09_values_immutable (hist later : List (MOp R)) (h1 : RootsPure hist)
    (h2 : RootsPure later) (a : Nat) (o : MObj R) (ha : (runHist [] hist)[a]? = some o) :
    ∃ o', (runHist [] (hist ++ later))[a]? = some o' ∧ o'.val = o.val := by
  obtain ⟨hH, -⟩ := run_inv hist [] heapInv_nil h1
  have : runHist ([] : Heap R) (hist ++ later) = runHist (runHist [] hist) later := by
    simp [runHist, List.foldl_append]
  rw [this]
  exact (run_inv later _ hH h2).2 a o ha

/-- **C09** (same configuration).  `change_config` to the current configuration returns the same object
and allocates nothing. -/
theorem C09_change_config_self (H : Heap R) (a : Nat) (o : MObj R) (ha : H[a]? = some o) :
    heapChangeConfig H a o.val.config = (.ok a, H) := by
  unfold heapChangeConfig; rw [ha]; simp

/-- the cache of `a` is empty or `a` and its cached inverse point to each other -/
def Mutual (a : Nat) (H : Heap R) : Prop :=
  ∃ o, H[a]? = some o ∧
    (o.invmetric = none ∨ ∃ b o', o.invmetric = some b ∧ H[b]? = some o' ∧ o'.invmetric = some a)

theorem mutual_append (a : Nat) (H : Heap R) (x : MObj R) (h : Mutual a H) :
    Mutual a (H ++ [x]) := by
  have key : ∀ (b : Nat) (o : MObj R), H[b]? = some o → (H ++ [x])[b]? = some o := by
    intro b o hb
    have hlt : b < H.length := by
      by_contra hc
      rw [List.getElem?_eq_none (by omega)] at hb; cases hb
    rw [List.getElem?_append_left hlt]; exact hb
  obtain ⟨o, h1, h2⟩ := h
  refine ⟨o, key _ _ h1, ?_⟩
  rcases h2 with h2 | ⟨b, o', h2, h3, h4⟩
  · exact Or.inl h2
  · exact Or.inr ⟨b, o', h2, key _ _ h3, h4⟩

theorem mutual_changeConfig (a : Nat) (H : Heap R) (c : Nat) (nc : Config) (h : Mutual a H) :
    Mutual a (heapChangeConfig H c nc).2 := by
  unfold heapChangeConfig
  split
  · exact h
  · split_ifs
    · exact h
    · split
      · exact h
      · exact mutual_append _ _ _ h
    · exact h

/-- effect of an `inv` call that has to compute -/
theorem heapInv_fresh (H : Heap R) (c : Nat) (o : MObj R) (hc : H[c]? = some o)
    (hn : o.invmetric = none) (hcfg : o.val.config = ['l', 'l'] ∨ o.val.config = ['u', 'u']) :
    (∃ e, heapInv H c = (.error e, H)) ∨
    ∃ x : MObj R, x.invmetric = some c ∧ heapInv H c = (.ok H.length,
      (H ++ [x]).modify c fun o => { o with invmetric := some H.length }) := by
  have hne : (if o.val.config = ['l', 'l'] then ['u', 'u'] else ['l', 'l'] : Config)
      ≠ o.val.config := by
    rcases hcfg with h | h <;> rw [h] <;> simp
  have hul : (if o.val.config = ['l', 'l'] then ['u', 'u'] else ['l', 'l'] : Config) = ['u', 'u'] ∨
      (if o.val.config = ['l', 'l'] then ['u', 'u'] else ['l', 'l'] : Config) = ['l', 'l'] := by
    split_ifs <;> simp
  unfold heapInv heapChangeConfig
  rw [hc]
  simp only [hn, if_neg hne, if_pos hul]
  cases o.val.arr.inv with
  | error e => exact Or.inl ⟨e, rfl⟩
  | ok arr => exact Or.inr ⟨_, rfl, rfl⟩

theorem mutual_inv (a : Nat) (H : Heap R) (hH : HeapInv H) (c : Nat) (h : Mutual a H) :
    Mutual a (heapInv H c).2 := by
  cases hc : H[c]? with
  | none => unfold heapInv; rw [hc]; exact h
  | some o =>
    cases hn : o.invmetric with
    | some b => unfold heapInv; rw [hc]; simp only [hn]; exact h
    | none =>
      rcases heapInv_fresh H c o hc hn (hH c o hc).1 with ⟨e, he⟩ | ⟨x, hx, he⟩
      · rw [he]; exact h
      · rw [he]
        simp only
        have hclt : c < H.length := by
          by_contra hcon
          rw [List.getElem?_eq_none (by omega)] at hc; cases hc
        by_cases hac : a = c
        · subst hac
          refine ⟨{ o with invmetric := some H.length }, ?_, Or.inr ⟨H.length, x, rfl, ?_, hx⟩⟩
          · rw [getElem?_modify, if_pos rfl, List.getElem?_append_left hclt, hc]; rfl
          · rw [getElem?_modify, if_neg (by omega)]; simp
        · obtain ⟨oa, h1, h2⟩ := mutual_append a H x h
          refine ⟨oa, by rw [getElem?_modify, if_neg (fun e => hac e.symm)]; exact h1, ?_⟩
          rcases h2 with h2 | ⟨b, ob, h2, h3, h4⟩
          · exact Or.inl h2
          · right
            refine ⟨b, ob, h2, ?_, h4⟩
            rw [getElem?_modify, if_neg]
            · exact h3
            · rintro rfl
              rw [List.getElem?_append_left hclt, hc] at h3
              cases h3
              rw [hn] at h4; cases h4

theorem mutual_step (a : Nat) (H : Heap R) (hH : HeapInv H) (op : MOp R) (h : Mutual a H) :
    Mutual a (op.step H).2 := by
  cases op with
  | new v => exact mutual_append _ _ _ h
  | changeConfig c nc => exact mutual_changeConfig _ _ _ _ h
  | inv c => exact mutual_inv a H hH c h
  | lowerConfig c =>
    show Mutual a (heapLower H c).2
    unfold heapLower
    split
    · exact h
    · split_ifs
      · exact h
      · exact mutual_inv a H hH c h

theorem mutual_run (a : Nat) (hist : List (MOp R)) : ∀ (H : Heap R), HeapInv H → RootsPure hist →
    Mutual a H → Mutual a (runHist H hist) := by
  induction hist with
  | nil => intro H _ _ h; exact h
  | cons op rest ih =>
    intro H hH hp h
    obtain ⟨h1, -⟩ := step_inv H hH op (fun v hv => hp v (by rw [hv]; exact List.mem_cons_self))
    exact ih _ h1 (fun v hv => hp v (List.mem_cons_of_mem _ hv)) (mutual_step a H hH op h)

/-- **C09** (identity).  Construct a metric at any point of a history and run any further history: if
`inv()` of that metric succeeds, `inv()` of the result is the very same object. -/
theorem C09_inv_inv_is_self (before after : List (MOp R)) (v : MetricV R) (b : Nat) (H' : Heap R)
    (hb : RootsPure before) (hv : v.config = ['l', 'l'] ∨ v.config = ['u', 'u'])
    (hafter : RootsPure after)
    (hinv : heapInv (runHist [] (before ++ [.new v] ++ after)) (runHist [] before).length
      = (.ok b, H')) :
    heapInv H' b = (.ok (runHist [] before).length, H') := by
  set H0 := runHist ([] : Heap R) before with hH0
  have hrun : runHist ([] : Heap R) (before ++ [.new v] ++ after)
      = runHist (H0 ++ [⟨v, none⟩]) after := by
    simp [runHist, List.foldl_append, hH0, MOp.step, heapNew]
  obtain ⟨hI0, -⟩ := run_inv before [] heapInv_nil hb
  obtain ⟨hI1, -⟩ := step_inv H0 hI0 (.new v) (by intro w hw; cases hw; exact hv)
  have hI1' : HeapInv (H0 ++ [⟨v, none⟩]) := hI1
  have hM1 : Mutual H0.length (H0 ++ [⟨v, none⟩]) := ⟨⟨v, none⟩, by simp, Or.inl rfl⟩
  obtain ⟨hI2, -⟩ := run_inv after _ hI1' hafter
  have hM2 := mutual_run H0.length after _ hI1' hafter hM1
  rw [hrun] at hinv
  set H := runHist (H0 ++ [⟨v, none⟩]) after with hH
  have hM3 := mutual_inv H0.length H hI2 H0.length hM2
  have hI3 := (inv_inv' H hI2 H0.length).1
  rw [hinv] at hM3 hI3
  simp only at hM3 hI3
  -- the cache of the root now holds `b`
  have hcache : ∃ o, H'[H0.length]? = some o ∧ o.invmetric = some b := by
    obtain ⟨o, ho, -⟩ := hM2
    cases hn : o.invmetric with
    | some b' =>
      have : heapInv H H0.length = (.ok b', H) := by unfold heapInv; rw [ho]; simp only [hn]
      rw [this, Prod.mk.injEq] at hinv
      obtain ⟨e1, e2⟩ := hinv
      cases e1
      rw [← e2]
      exact ⟨o, ho, hn⟩
    | none =>
      have hlt : H0.length < H.length := by
        by_contra hcon
        rw [List.getElem?_eq_none (by omega)] at ho; cases ho
      rcases heapInv_fresh H _ o ho hn (hI2 _ o ho).1 with ⟨e, he⟩ | ⟨x, hx, he⟩
      · rw [he] at hinv; cases hinv
      · rw [he] at hinv
        cases hinv
        exact ⟨{ o with invmetric := some H.length }, by
          rw [getElem?_modify, if_pos rfl, List.getElem?_append_left hlt, ho]; rfl, rfl⟩
  obtain ⟨o, ho, hob⟩ := hcache
  obtain ⟨o2, ho2, hmut⟩ := hM3
  rw [ho] at ho2
  cases ho2
  rcases hmut with hmut | ⟨b', ob', h1, h2, h3⟩
  · rw [hob] at hmut; cases hmut
  · rw [hob] at h1
    cases h1
    unfold heapInv
    rw [h2]
    simp only [h3]

theorem exMetric_config : exMetric.config = ['l', 'l'] := rfl

/-- A concrete history in which the hypotheses hold: construct, then `change_config('uu')`, then `inv`. -/
example : RootsPure [MOp.new exMetric, MOp.changeConfig 0 ['u', 'u'], MOp.inv 0, MOp.lowerConfig 1] := by
  intro v hv
  simp at hv
  subst hv
  exact Or.inl rfl

/-- and `inv()` on the constructed metric succeeds there -/
example : ∃ b H', heapInv (runHist [] ([] ++ [MOp.new exMetric] ++ [MOp.changeConfig 0 ['u', 'u']])) 0
    = (.ok b, H') := by
  have hi := NDArr.inv_ok exMetric.arr exMetric_represents.1
    (by rw [show exMetric.arr.toMatrix 2 = _ from toMatrix_ofMatrix _]; exact exMetric_represents.2.1)
  have h1 : runHist ([] : Heap ℚ) ([] ++ [MOp.new exMetric] ++ [MOp.changeConfig 0 ['u', 'u']])
      = [⟨exMetric, none⟩] ++ [⟨⟨NDArr.ofMatrix (exMetric.arr.toMatrix 2)⁻¹, ['u', 'u'], exMetric.syms,
          changeName exMetric.name ("__" ++ String.ofList ['u', 'u'])⟩, some 0⟩] := by
    simp [runHist, MOp.step, heapNew, heapChangeConfig, hi, exMetric_config]
  rw [h1]
  rcases heapInv_fresh ([⟨exMetric, none⟩] ++ [⟨⟨NDArr.ofMatrix (exMetric.arr.toMatrix 2)⁻¹,
      ['u', 'u'], exMetric.syms, changeName exMetric.name ("__" ++ String.ofList ['u', 'u'])⟩, some 0⟩])
      0 ⟨exMetric, none⟩ rfl rfl (Or.inl rfl) with ⟨e, he⟩ | ⟨x, -, he⟩
  · exfalso
    have := congrArg Prod.fst he
    simp [heapInv, heapChangeConfig, hi, exMetric_config] at this
  · exact ⟨_, _, he⟩

/-- Observation: the identity `inv().inv() is self` is special to constructed metrics.  An object made
by `change_config` from a metric whose cache is empty is not returned by `inv().inv()`. -/
theorem C09_change_config_copy_not_cached :
    ∃ (H : Heap ℚ) (b : Nat) (H' : Heap ℚ),
      H = runHist [] [MOp.new exMetric, MOp.changeConfig 0 ['u', 'u']] ∧
      heapInv H 1 = (.ok 0, H) ∧ heapInv H 0 = (.ok b, H') ∧ b ≠ 1 := by
  have hi := NDArr.inv_ok exMetric.arr exMetric_represents.1
    (by rw [show exMetric.arr.toMatrix 2 = _ from toMatrix_ofMatrix _]; exact exMetric_represents.2.1)
  refine ⟨_, 2, (heapInv (runHist [] [MOp.new exMetric, MOp.changeConfig 0 ['u', 'u']]) 0).2, rfl,
    ?_, ?_, by decide⟩
  · simp [runHist, MOp.step, heapNew, heapChangeConfig, heapInv, hi, exMetric_config]
  · simp [runHist, MOp.step, heapNew, heapChangeConfig, heapInv, hi, exMetric_config]

end
end Einpy
