import Mathlib.Data.List.Infix
import Mathlib.Data.List.Basic
import Verif.Py.Basic

/-!
# `predefined/find.py` (C66) and `symbolic/constants.py` (C88)

Strings are lists of characters.  `lc` is the lower-case mapping of single characters (in Unicode a character may map to
several; the context rule for the final sigma is not modelled).
-/

namespace Einpy.Predef

abbrev Str := List Char

/-- ASCII lower case; other characters are left alone. -/
def asciiLower (c : Char) : List Char := [c.toLower]

/-- `str.lower()`. -/
def strLower (lc : Char → List Char) (s : Str) : Str := s.flatMap lc

/-- `str.islower()`: some character is cased, and no cased character is upper case (ASCII names). -/
def strIsLower (s : Str) : Bool := s.any (fun c => c.isAlpha) && s.all (fun c => !c.isUpper)

/-- `a in b` for strings. -/
def strIn (a : Str) : Str → Bool
  | [] => a.isEmpty
  | c :: b => a.isPrefixOf (c :: b) || strIn a b

/-- The names `dir(einsteinpy.symbolic.predefined)` (predefined/__init__.py:1-13 and the attributes of a package, sorted). -/
def dirPredefined : List Str := [
  "AlcubierreWarp".toList, "AntiDeSitter".toList, "AntiDeSitterStatic".toList, "BarriolaVilekin".toList,
  "BertottiKasner".toList, "BesselGravitationalWave".toList, "CMetric".toList, "Davidson".toList, "DeSitter".toList,
  "Ernst".toList, "Godel".toList, "JanisNewmanWinicour".toList, "Kerr".toList, "KerrNewman".toList, "Minkowski".toList,
  "MinkowskiCartesian".toList, "MinkowskiPolar".toList, "ReissnerNordstorm".toList, "Schwarzschild".toList,
  "__builtins__".toList, "__cached__".toList, "__doc__".toList, "__file__".toList, "__loader__".toList, "__name__".toList,
  "__package__".toList, "__path__".toList, "__spec__".toList, "alcubierre_warp".toList, "barriola_vilenkin".toList,
  "bertotti_kasner".toList, "bessel_gravitational_wave".toList, "cmetric".toList, "davidson".toList, "de_sitter".toList,
  "ernst".toList, "find".toList, "godel".toList, "janis_newman_winicour".toList, "minkowski".toList,
  "vacuum_solutions".toList]

/-- predefined/find.py:4-26 `find`, over the attribute names `names` of the module. -/
def find (lc : Char → List Char) (names : List Str) (search : Str) : List Str :=
  let search := strLower lc search
  names.filter fun fname => strIn search (strLower lc fname) && !strIsLower fname

/-! ## Specification -/

/-- The metric constructors exported by the module. -/
def constructors : List Str := [
  "AlcubierreWarp".toList, "AntiDeSitter".toList, "AntiDeSitterStatic".toList, "BarriolaVilekin".toList,
  "BertottiKasner".toList, "BesselGravitationalWave".toList, "CMetric".toList, "Davidson".toList, "DeSitter".toList,
  "Ernst".toList, "Godel".toList, "JanisNewmanWinicour".toList, "Kerr".toList, "KerrNewman".toList, "Minkowski".toList,
  "MinkowskiCartesian".toList, "MinkowskiPolar".toList, "ReissnerNordstorm".toList, "Schwarzschild".toList]

/-- `s` occurs in `n`, ignoring case: some stretch of `n` agrees with `s` after lower-casing. -/
def Occurs (lc : Char → List Char) (s n : Str) : Prop := ∃ a b, strLower lc n = a ++ strLower lc s ++ b

/-! ## C66 -/

theorem strIn_iff (a b : Str) : strIn a b = true ↔ ∃ u w, b = u ++ a ++ w := by
  induction b with
  | nil =>
    unfold strIn
    rw [List.isEmpty_iff]
    constructor
    · rintro rfl; exact ⟨[], [], rfl⟩
    · rintro ⟨u, w, h⟩
      have := List.append_eq_nil_iff.1 h.symm
      exact (List.append_eq_nil_iff.1 this.1).2
  | cons c b ih =>
    unfold strIn
    rw [Bool.or_eq_true, ih, List.isPrefixOf_iff_prefix]
    constructor
    · rintro (⟨w, h⟩ | ⟨u, w, h⟩)
      · exact ⟨[], w, h.symm⟩
      · exact ⟨c :: u, w, by rw [h]; rfl⟩
    · rintro ⟨u, w, h⟩
      cases u with
      | nil => exact Or.inl ⟨w, h.symm⟩
      | cons d u =>
        have h' : c :: b = d :: (u ++ a ++ w) := h
        exact Or.inr ⟨u, w, (List.cons.inj h').2⟩

theorem isLower_iff (n : Str) :
    strIsLower n = false ↔ ((∃ c ∈ n, c.isUpper = true) ∨ ∀ c ∈ n, c.isAlpha = false) := by
  unfold strIsLower
  rw [Bool.and_eq_false_iff, List.any_eq_false, List.all_eq_false, or_comm]
  simp

/-- **C66.** For every list of names and every search string, find returns exactly the names that contain the string (ignoring
case) and have a capital letter or no letter at all. -/
theorem C66_exact (lc : Char → List Char) (names : List Str) (s n : Str) :
    n ∈ find lc names s ↔ n ∈ names ∧ Occurs lc s n ∧ ((∃ c ∈ n, c.isUpper = true) ∨ ∀ c ∈ n, c.isAlpha = false) := by
  unfold find Occurs
  rw [List.mem_filter, Bool.and_eq_true, strIn_iff, Bool.not_eq_true', ← isLower_iff]

/-- **C66.** The result keeps the order and the multiplicity of the names. -/
theorem C66_order (lc : Char → List Char) (names : List Str) (s : Str) :
    (find lc names s).Sublist names ∧ ∀ n, n ∈ find lc names s → (find lc names s).count n = names.count n := by
  refine ⟨List.filter_sublist, fun n hn => ?_⟩
  unfold find at hn ⊢
  exact List.count_filter (List.mem_filter.1 hn).2

theorem constructors_eq : dirPredefined.filter (fun n => !strIsLower n) = constructors := by rfl

/-- **C66.** For the names of the module: every hit is a metric constructor, every constructor containing the string is a hit,
and the empty string finds all of them. -/
theorem C66_constructors (lc : Char → List Char) (s : Str) :
    (∀ n, n ∈ find lc dirPredefined s ↔ n ∈ constructors ∧ Occurs lc s n) ∧ find lc dirPredefined [] = constructors := by
  refine ⟨fun n => ?_, ?_⟩
  · rw [C66_exact, ← isLower_iff, ← constructors_eq, List.mem_filter, Bool.not_eq_true']
    tauto
  · rw [← constructors_eq]
    unfold find
    refine List.filter_congr fun n _ => ?_
    have : strIn (strLower lc []) (strLower lc n) = true := (strIn_iff _ _).2 ⟨[], strLower lc n, rfl⟩
    rw [this, Bool.true_and]

/-- **C66.** The search ignores the case of the search string. -/
theorem C66_case (lc : Char → List Char) (names : List Str) {s s' : Str} (h : strLower lc s = strLower lc s') :
    find lc names s = find lc names s' := by
  unfold find
  rw [h]

/-- In ASCII, upper-casing a letter of the search string makes no difference. -/
theorem C66_case_ascii (names : List Str) (s s' : Str) (hs : s.map Char.toLower = s'.map Char.toLower) :
    find asciiLower names s = find asciiLower names s' := by
  refine C66_case asciiLower names ?_
  have e : ∀ l : Str, strLower asciiLower l = l.map Char.toLower := by
    intro l
    induction l with
    | nil => rfl
    | cons c l ih => show [c.toLower] ++ strLower asciiLower l = _; rw [ih]; rfl
  rw [e, e, hs]

/-- **C66.** A longer search string finds no more: if `s` is a stretch of `s'`, find(s') is a sublist of find(s). -/
theorem C66_monotone (lc : Char → List Char) (names : List Str) {s s' : Str} (h : ∃ a b, s' = a ++ s ++ b) :
    (find lc names s').Sublist (find lc names s) := by
  obtain ⟨a, b, rfl⟩ := h
  unfold find
  refine List.monotone_filter_right names fun n hn => ?_
  rw [Bool.and_eq_true] at hn ⊢
  refine ⟨?_, hn.2⟩
  obtain ⟨u, w, h⟩ := (strIn_iff _ _).1 hn.1
  refine (strIn_iff _ _).2 ⟨u ++ strLower lc a, strLower lc b ++ w, ?_⟩
  rw [h]
  show u ++ (a ++ s ++ b).flatMap lc ++ w = _
  rw [List.flatMap_append, List.flatMap_append]
  simp [strLower]

example : find asciiLower dirPredefined "KERR".toList = ["Kerr".toList, "KerrNewman".toList] ∧
    find asciiLower dirPredefined "sitter".toList = ["AntiDeSitter".toList, "AntiDeSitterStatic".toList, "DeSitter".toList] ∧
    find asciiLower dirPredefined "find".toList = [] := ⟨rfl, rfl, rfl⟩

/-! ## C88: symbolic constants -/

/-- A `SymbolicConstant` (symbolic/constants.py:4-37): name of the symbol and descriptive name. -/
structure SymConst where
  name : String
  descriptive : String
  deriving DecidableEq

/-- symbolic/constants.py:40-43. -/
def cC : SymConst := ⟨"c", "Speed Of Light"⟩
def cG : SymConst := ⟨"G", "Gravitational Constant"⟩
def cLambda : SymConst := ⟨"Lambda", "Cosmological Constant"⟩
def cEps : SymConst := ⟨"eps_0", "Permittivity of free space"⟩

/-- symbolic/constants.py:46-63 `get_constant`. -/
def getConstant (name : String) : Py SymConst :=
  match [("c", cC), ("G", cG), ("Cosmo_Const", cLambda), ("eps_0", cEps)].lookup name with
  | some k => .ok k
  | none => .error .keyError

/-- **C88.** get_constant accepts exactly the four documented names; different names give different symbols. -/
theorem C88_names (name : String) :
    ((∃ k, getConstant name = .ok k) ↔ name = "c" ∨ name = "G" ∨ name = "Cosmo_Const" ∨ name = "eps_0") ∧
    (¬ (name = "c" ∨ name = "G" ∨ name = "Cosmo_Const" ∨ name = "eps_0") → getConstant name = .error .keyError) := by
  by_cases h1 : name = "c"
  · subst h1; exact ⟨⟨fun _ => Or.inl rfl, fun _ => ⟨_, rfl⟩⟩, fun h => absurd (Or.inl rfl) h⟩
  by_cases h2 : name = "G"
  · subst h2; exact ⟨⟨fun _ => Or.inr (Or.inl rfl), fun _ => ⟨_, rfl⟩⟩, fun h => absurd (Or.inr (Or.inl rfl)) h⟩
  by_cases h3 : name = "Cosmo_Const"
  · subst h3
    exact ⟨⟨fun _ => Or.inr (Or.inr (Or.inl rfl)), fun _ => ⟨_, rfl⟩⟩, fun h => absurd (Or.inr (Or.inr (Or.inl rfl))) h⟩
  by_cases h4 : name = "eps_0"
  · subst h4
    exact ⟨⟨fun _ => Or.inr (Or.inr (Or.inr rfl)), fun _ => ⟨_, rfl⟩⟩, fun h => absurd (Or.inr (Or.inr (Or.inr rfl))) h⟩
  have e : getConstant name = .error .keyError := by
    unfold getConstant
    rw [List.lookup_cons, beq_eq_false_iff_ne.2 h1, List.lookup_cons, beq_eq_false_iff_ne.2 h2, List.lookup_cons,
      beq_eq_false_iff_ne.2 h3, List.lookup_cons, beq_eq_false_iff_ne.2 h4]
    rfl
  refine ⟨⟨?_, ?_⟩, fun _ => e⟩
  · rintro ⟨k, hk⟩; rw [e] at hk; cases hk
  · rintro (h | h | h | h) <;> contradiction

/-- **C88.** Different names give different symbols. -/
theorem C88_injective {n n' : String} {k : SymConst} (h : getConstant n = .ok k) (h' : ∃ k', getConstant n' = .ok k' ∧ k'.name = k.name) :
    n = n' := by
  obtain ⟨k', h', hk⟩ := h'
  have a := (C88_names n).1.1 ⟨_, h⟩
  have b := (C88_names n').1.1 ⟨_, h'⟩
  rcases a with rfl | rfl | rfl | rfl <;> rcases b with rfl | rfl | rfl | rfl <;> first
    | rfl
    | (exfalso; have e := Except.ok.inj h; have e' := Except.ok.inj h'; subst e; subst e'; exact absurd hk (by decide))

/-- **C88.** What the four names give. -/
theorem C88_values : getConstant "c" = .ok ⟨"c", "Speed Of Light"⟩ ∧ getConstant "G" = .ok ⟨"G", "Gravitational Constant"⟩ ∧
    getConstant "Cosmo_Const" = .ok ⟨"Lambda", "Cosmological Constant"⟩ ∧
    getConstant "eps_0" = .ok ⟨"eps_0", "Permittivity of free space"⟩ := ⟨rfl, rfl, rfl, rfl⟩

end Einpy.Predef
