import Verif.Py.Basic
import Mathlib.Data.List.Basic

/-!
# Names with a number: `f"{v}_{i}"`

Strings are lists of characters; a natural number is written in base ten.
-/

namespace Verif

/-- `causal.py:37`, `61`, `83`: `f"{v}_{i}"` -/
def pySfx (v : List Char) (i : Nat) : List Char := v ++ '_' :: Nat.toDigits 10 i

theorem append_sep_inj {X : Type} {x : X} {v w a b : List X} (ha : x ∉ a) (hb : x ∉ b) (h : v ++ x :: a = w ++ x :: b) :
    v = w ∧ a = b := by
  induction v generalizing w with
  | nil =>
    cases w with
    | nil => simpa using h
    | cons y w =>
      simp only [List.nil_append, List.cons_append, List.cons.injEq] at h
      exact absurd (by rw [h.2]; simp) ha
  | cons z v ih =>
    cases w with
    | nil =>
      simp only [List.nil_append, List.cons_append, List.cons.injEq] at h
      exact absurd (by rw [← h.2]; simp) hb
    | cons y w =>
      simp only [List.cons_append, List.cons.injEq] at h
      obtain ⟨h1, h2⟩ := ih h.2
      exact ⟨by rw [h.1, h1], h2⟩

/-- Different variables or numbers have different names. -/
theorem pySfx_inj {v w : List Char} {i j : Nat} (h : pySfx v i = pySfx w j) : v = w ∧ i = j := by
  obtain ⟨h1, h2⟩ := append_sep_inj Nat.underscore_not_in_toDigits Nat.underscore_not_in_toDigits h
  refine ⟨h1, ?_⟩
  have := congrArg (fun l => Nat.ofDigitChars 10 l 0) h2
  simpa [Nat.ofDigitChars_ten_toDigits] using this

end Verif
