import Mathlib.Logic.Function.Iterate
import Mathlib.Data.List.Basic

/-!
# Python `while` loops

`While c f s s'`: the loop `while c: f`, started in state `s`, ends in state `s'`.  A loop that does not terminate has no
final state.
-/

namespace Einpy.Misc

/-- Big-step semantics of `while c: s = f(s)`. -/
inductive While {σ : Type} (c : σ → Prop) (f : σ → σ) : σ → σ → Prop
  | done (s : σ) : ¬ c s → While c f s s
  | next (s s' : σ) : c s → While c f (f s) s' → While c f s s'

variable {σ : Type} {c : σ → Prop} {f : σ → σ}

/-- The loop ends exactly after some number of rounds, the condition holding before each and failing at the end. -/
theorem while_iff {s s' : σ} :
    While c f s s' ↔ ∃ n, s' = f^[n] s ∧ ¬ c (f^[n] s) ∧ ∀ k, k < n → c (f^[k] s) := by
  constructor
  · intro h
    induction h with
    | done s hs => exact ⟨0, rfl, hs, fun k hk => absurd hk (Nat.not_lt_zero k)⟩
    | next s s' hs _ ih =>
      obtain ⟨n, h1, h2, h3⟩ := ih
      refine ⟨n + 1, h1, h2, fun k hk => ?_⟩
      cases k with
      | zero => exact hs
      | succ k => exact h3 k (Nat.lt_of_succ_lt_succ hk)
  · rintro ⟨n, rfl, h2, h3⟩
    induction n generalizing s with
    | zero => exact .done s h2
    | succ n ih =>
      refine .next s _ (h3 0 (Nat.succ_pos n)) ?_
      exact ih h2 (fun k hk => h3 (k + 1) (Nat.succ_lt_succ hk))

/-- The final state is unique. -/
theorem while_unique {s a b : σ} (ha : While c f s a) (hb : While c f s b) : a = b := by
  induction ha with
  | done s hs => cases hb with
    | done => rfl
    | next _ _ h _ => exact absurd h hs
  | next s s' hs _ ih => cases hb with
    | done _ h => exact absurd hs h
    | next _ _ _ h => exact ih h

/-- A loop that runs exactly `n` rounds. -/
theorem while_of {s : σ} (n : ℕ) (h2 : ¬ c (f^[n] s)) (h3 : ∀ k, k < n → c (f^[k] s)) : While c f s (f^[n] s) :=
  while_iff.2 ⟨n, rfl, h2, h3⟩

/-- A condition that always holds: the loop never ends. -/
theorem while_diverges {s : σ} (h : ∀ k, c (f^[k] s)) (s' : σ) : ¬ While c f s s' := by
  intro hw
  obtain ⟨n, _, h2, _⟩ := while_iff.1 hw
  exact h2 (h n)

end Einpy.Misc
