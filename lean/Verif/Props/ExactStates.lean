import Verif.Props.Util

/-!
# Exactly when the order of the states matters for the true and the false state (C47)
-/

set_option linter.unusedSectionVars false
set_option linter.unusedSimpArgs false

namespace Verif.Props
open Verif PyVal

section
variable {K : Type} [DecidableEq K] [Zero K] [One K] [NeZero (1 : K)]

/-- Two different strings with the same lower-case form, which is that of the name followed by 0, 1 or 2. -/
def CaseClash (lower : List Char → List Char) (var : List Char) (a b : PyVal K) : Prop :=
  ∃ s t, a = .str s ∧ b = .str t ∧ s ≠ t ∧ lower s = lower t ∧
    (lower s = lower var ++ ['0'] ∨ lower s = lower var ++ ['1'] ∨ lower s = lower var ++ ['2'])

theorem identify_str (lower : List Char → List Char) (var s t : List Char) (he : lower s = lower t) :
    identifyTrueFalse (K := K) lower var [.str s, .str t] =
      if lower s = lower var ++ ['0'] ∨ lower s = lower var ++ ['1'] ∨ lower s = lower var ++ ['2'] then
        .ok (.str s, .str t) else .error .valueError := by
  rw [identify_eq lower var _ (by simp) (by simp [type]) (t := .str) (ts := [.str]) (by simp [type])]
  have e1 : (lower var ++ ['0'] ≠ lower var ++ ['1']) := by simp
  have e2 : (lower var ++ ['0'] ≠ lower var ++ ['2']) := by simp
  have e3 : (lower var ++ ['1'] ≠ lower var ++ ['2']) := by simp
  by_cases h0 : lower s = lower var ++ ['0']
  · have h1 : lower s ≠ lower var ++ ['1'] := h0 ▸ e1
    have h2 : lower s ≠ lower var ++ ['2'] := h0 ▸ e2
    rw [if_pos (.inl h0)]
    simp only [candidates, List.filter_cons, lowerIs, ← he, h0, h1, h2]
    simp [e1, e2]
  · by_cases h1 : lower s = lower var ++ ['1']
    · rw [if_pos (.inr (.inl h1))]
      simp only [candidates, List.filter_cons, lowerIs, ← he, h1]
      simp [e1.symm, e3]
    · by_cases h2 : lower s = lower var ++ ['2']
      · rw [if_pos (.inr (.inr h2))]
        simp only [candidates, List.filter_cons, lowerIs, ← he, h2]
        simp [e2.symm, e3.symm]
      · rw [if_neg (by simp [h0, h1, h2])]
        simp [candidates, List.filter_cons, lowerIs, ← he, h0, h1, h2]

/-- **C47** exactly: the order in which the two states are listed matters if and only if they are different strings with the
same lower-case form, the one of the name followed by 0, 1 or 2. -/
theorem C47_exact (lower : List Char → List Char) (var : List Char) (a b : PyVal K) :
    identifyTrueFalse lower var [a, b] = identifyTrueFalse lower var [b, a] ↔ ¬ CaseClash lower var a b := by
  constructor
  · rintro h ⟨s, t, rfl, rfl, hne, he, hc⟩
    rw [identify_str lower var s t he, identify_str lower var t s he.symm, ← he, if_pos hc, if_pos hc] at h
    injection h with h
    injection h with h
    injection h with h
    exact hne h
  · intro h
    by_cases hs : ∃ s t, a = .str s ∧ b = .str t ∧ lower s = lower t
    · obtain ⟨s, t, rfl, rfl, he⟩ := hs
      by_cases hst : s = t
      · rw [hst]
      · have hc : ¬ (lower s = lower var ++ ['0'] ∨ lower s = lower var ++ ['1'] ∨ lower s = lower var ++ ['2']) :=
          fun hc => h ⟨s, t, rfl, rfl, hst, he, hc⟩
        rw [identify_str lower var s t he, identify_str lower var t s he.symm, ← he, if_neg hc, if_neg hc]
    · refine C47_order_partial lower var (List.Perm.swap b a []) ?_
      intro s t h1 h2 he
      simp only [List.mem_cons, List.not_mem_nil, or_false] at h1 h2
      rcases h1 with h1 | h1 <;> rcases h2 with h2 | h2
      · exact PyVal.str.inj (h1.trans h2.symm)
      · exact absurd ⟨s, t, h1.symm, h2.symm, he⟩ hs
      · exact absurd ⟨t, s, h2.symm, h1.symm, he.symm⟩ hs
      · exact PyVal.str.inj (h1.trans h2.symm)

/-- Lists of states of any length: only two states that clash make the order matter. -/
theorem C47_exact_list (lower : List Char → List Char) (var : List Char) (dom : List (PyVal K)) :
    (∀ dom', dom.Perm dom' → identifyTrueFalse lower var dom = identifyTrueFalse lower var dom') ↔
      ¬ ∃ a b, dom = [a, b] ∧ CaseClash lower var a b := by
  constructor
  · rintro h ⟨a, b, rfl, hc⟩
    exact (C47_exact lower var a b).1 (h _ (List.Perm.swap b a [])) hc
  · intro h dom' hp
    match dom, hp, h with
    | [], hp, _ => rw [List.nil_perm.1 hp]
    | [a], hp, _ => rw [List.singleton_perm.1 hp]
    | [a, b], hp, h =>
      have hn : ¬ CaseClash lower var a b := fun hc => h ⟨a, b, rfl, hc⟩
      by_cases e : dom' = [a, b]
      · rw [e]
      · have : dom' = [b, a] := by
          match dom', hp.length_eq, hp, e with
          | [x, y], _, hp, e =>
            have hx := hp.mem_iff.2 (List.mem_cons_self (a := x) (l := [y]))
            rcases List.mem_cons.1 hx with rfl | hx
            · have := List.singleton_perm.1 ((List.perm_cons x).1 hp)
              exact absurd (by rw [← this]) e
            · have hx := List.mem_singleton.1 hx
              subst hx
              have := List.singleton_perm.1 ((List.perm_cons x).1 ((List.Perm.swap a x []).trans hp))
              rw [← this]
        rw [this]
        exact (C47_exact lower var a b).2 hn
    | a :: b :: c :: l, hp, _ =>
      have h1 : (a :: b :: c :: l).length > 2 := by simp
      have h2 : dom'.length > 2 := hp.length_eq ▸ h1
      rw [identifyTrueFalse, identifyTrueFalse, if_pos h1, if_pos h2]
      rfl

end

/-- Both cases occur. -/
theorem C47_exact_example :
    CaseClash (K := ℚ) lowerEx "X".toList (.str "X1".toList) (.str "x1".toList) ∧
    ¬ CaseClash (K := ℚ) lowerEx "X".toList (.str "x1".toList) (.str "x0".toList) ∧
    ¬ CaseClash (K := ℚ) lowerEx "X".toList (.str "Xa".toList) (.str "xa".toList) := by
  refine ⟨⟨_, _, rfl, rfl, by decide, by decide, by decide⟩, ?_, ?_⟩
  · rintro ⟨s, t, h1, h2, _, h, _⟩
    injection h1 with h1; injection h2 with h2
    subst h1 h2
    exact absurd h (by decide)
  · rintro ⟨s, t, h1, h2, _, _, h⟩
    injection h1 with h1
    subst h1
    exact absurd h (by decide)

end Verif.Props
