import Verif.Util.Domains
import Verif.Props.Util

/-!
# Properties of made-up domains and of the order of cells (C106, C107)
-/

set_option linter.unusedSectionVars false
set_option linter.unusedSimpArgs false

namespace Verif
namespace Props

/-! ### C106 -/

section dom
variable {K : Type} [DecidableEq K] [Zero K] [One K] [NeZero (1 : K)]
open PyVal

theorem toDigits_inj {i j : Nat} (h : Nat.toDigits 10 i = Nat.toDigits 10 j) : i = j := by
  have := congrArg (fun l => Nat.ofDigitChars 10 l 0) h
  simpa [Nat.ofDigitChars_ten_toDigits] using this

theorem minus_notin {n : Nat} : '-' ∉ Nat.toDigits 10 n := fun h => by
  have := Nat.isDigit_of_mem_toDigits (by decide) (by decide) h
  exact absurd this (by decide)

theorem intStr_inj {m n : Int} (h : intStr m = intStr n) : m = n := by
  cases m with
  | ofNat m =>
    cases n with
    | ofNat n => rw [toDigits_inj h]
    | negSucc n => exact absurd (show '-' ∈ Nat.toDigits 10 m by rw [show Nat.toDigits 10 m = _ from h]; exact List.mem_cons_self) minus_notin
  | negSucc m =>
    cases n with
    | ofNat n => exact absurd (show '-' ∈ Nat.toDigits 10 n by rw [show Nat.toDigits 10 n = _ from h.symm]; exact List.mem_cons_self) minus_notin
    | negSucc n =>
      have := toDigits_inj (List.cons.inj h).2
      rw [Int.negSucc.injEq]; omega

/-- **C106** the domain that is made up has the variables that are given, in their order, each with as many different states as asked for:
the numbers from `first` on, after the name in lower case if strings are asked for. -/
theorem C106_states (lower : List Char → List Char) {varsizes : List (List Char × Int)} (hne : varsizes ≠ []) (first : Int) (b : Bool) :
    ∃ d, (createDomain lower varsizes first b : Py (List (List Char × List (PyVal K)))) = .ok d ∧ d.map Prod.fst = varsizes.map Prod.fst ∧
      ∀ (k : Nat) v n, varsizes[k]? = some (v, n) → ∃ st : List (PyVal K), d[k]? = some (v, st) ∧ (0 ≤ n → (st.length : Int) = n) ∧ st.Nodup ∧
        ∀ x, x ∈ st ↔ ∃ i, first ≤ i ∧ i < first + n ∧ x = if b then .str (lower v ++ intStr i) else .int i := by
  have hl : ¬ varsizes.length = 0 := fun h => hne (List.length_eq_zero_iff.1 h)
  rw [createDomain, if_neg hl]
  refine ⟨_, rfl, by simp [Function.comp_def], fun k v n h => ⟨_, by rw [List.getElem?_map, h]; rfl, fun hn => ?_, ?_, fun x => ?_⟩⟩
  · rw [List.length_map, List.length_range]; exact Int.toNat_of_nonneg hn
  · refine List.Nodup.map_on (fun i _ j _ e => ?_) List.nodup_range
    cases b with
    | true =>
      simp only [if_true, PyVal.str.injEq, List.append_cancel_left_eq] at e
      have := intStr_inj e
      omega
    | false =>
      simp only [Bool.false_eq_true, if_false, PyVal.int.injEq] at e
      omega
  · simp only [List.mem_map, List.mem_range]
    constructor
    · rintro ⟨i, hi, rfl⟩
      exact ⟨first + i, by omega, by omega, rfl⟩
    · rintro ⟨i, h1, h2, rfl⟩
      have : first + ((i - first).toNat : Int) = i := by omega
      exact ⟨(i - first).toNat, by omega, by rw [this]⟩

/-- **C106** without variables there is no domain: an IndexError is raised. -/
theorem C106_empty (lower : List Char → List Char) (first : Int) (b : Bool) :
    (createDomain lower [] first b : Py (List (List Char × List (PyVal K)))) = .error .indexError := rfl

/-- **C106** when the true and the false state of a made-up domain are found: with two states, counted from zero, or from one if
they are strings.  The name in lower case followed by a number is its own lower case. -/
theorem C106_true_false (lower : List Char → List Char) {varsizes : List (List Char × Int)} {first : Int} {b : Bool}
    {d : List (List Char × List (PyVal K))} (hd : createDomain lower varsizes first b = .ok d) {v : List Char} {st : List (PyVal K)}
    (hv : (v, st) ∈ d) (hlow : ∀ i, lower (lower v ++ intStr i) = lower v ++ intStr i) (t f : PyVal K) :
    identifyTrueFalse lower v st = .ok (t, f) ↔
      st.length = 2 ∧ ((first = 0 ∧ b = true ∧ t = .str (lower v ++ ['1']) ∧ f = .str (lower v ++ ['0'])) ∨
        (first = 1 ∧ b = true ∧ t = .str (lower v ++ ['1']) ∧ f = .str (lower v ++ ['2'])) ∨
        (first = 0 ∧ b = false ∧ t = .int 1 ∧ f = .int 0)) := by
  by_cases hl : varsizes.length = 0
  · rw [createDomain, if_pos hl] at hd; cases hd
  rw [createDomain, if_neg hl] at hd
  injection hd with hd
  subst hd
  obtain ⟨p, _, hp⟩ := List.mem_map.1 hv
  injection hp with h1 h2
  subst h1
  by_cases hs : st.length = 2
  · have hn : p.2.toNat = 2 := by rw [← h2, List.length_map, List.length_range] at hs; exact hs
    rw [hn] at h2
    have e0 : intStr 0 = ['0'] := by decide
    have e1 : intStr 1 = ['1'] := by decide
    have e2 : intStr 2 = ['2'] := by decide
    have key : ∀ i j : Int, lower p.1 ++ intStr i = lower p.1 ++ intStr j ↔ i = j := fun i j =>
      ⟨fun h => intStr_inj (List.append_cancel_left h), fun h => by rw [h]⟩
    simp only [hs, true_and]
    rw [← e0, ← e1, ← e2]
    cases b with
    | true =>
      have h2' : st = [.str (lower p.1 ++ intStr first), .str (lower p.1 ++ intStr (first + 1))] := by
        rw [← h2]; simp [List.range_succ]
      rw [h2', identify_eq lower p.1 _ (by simp) (by simp [PyVal.type]) rfl]
      simp only [candidates, PyVal.type, reduceCtorEq, or_self, if_false, if_true, List.filter_cons, List.filter_nil, lowerIs, hlow, decide_eq_true_eq]
      rw [← e0, ← e1, ← e2]
      simp only [key]
      by_cases c0 : first = 0
      · subst c0
        simp [eq_comm]
      · by_cases c1 : first = 1
        · subst c1; simp [eq_comm]
        · have n1 : ¬ first + 1 = 0 ∨ first = -1 := by omega
          by_cases c2 : first = 2
          · subst c2; simp
          · by_cases c3 : first = -1
            · subst c3; simp
            · rw [if_neg c1, if_neg (by omega), if_neg c0, if_neg (by omega), if_neg c2, if_neg (by omega)]
              simp [c0, c1]
    | false =>
      have h2' : st = [.int first, .int (first + 1)] := by
        rw [← h2]; simp [List.range_succ]
      rw [h2', identify_eq lower p.1 _ (by simp) (by simp [PyVal.type]) rfl]
      simp only [candidates, PyVal.type, true_or, if_true, List.filter_cons, List.filter_nil, eqTrue, eqFalse, decide_eq_true_eq]
      by_cases c0 : first = 0
      · subst c0; simp [eq_comm]
      · by_cases c1 : first = 1
        · subst c1; simp
        · by_cases c3 : first = -1
          · subst c3; simp
          · rw [if_neg c1, if_neg (by omega), if_neg c0, if_neg (by omega)]
            simp [c0, c1]
  · obtain ⟨e, he⟩ := C47_refused lower p.1 st (Or.inl hs)
    rw [he]
    simp [hs]

/-- **C106** on an example; without strings the states of the default domain (1 and 2) are not recognised. -/
theorem C106_example :
    (createDomain id [(['x'], 2), (['y'], 3)] : Py (List (List Char × List (PyVal ℚ)))) =
      .ok [(['x'], [.str ['x', '1'], .str ['x', '2']]), (['y'], [.str ['y', '1'], .str ['y', '2'], .str ['y', '3']])] ∧
    (identifyTrueFalse id ['x'] [.str ['x', '1'], .str ['x', '2']] : Py (PyVal ℚ × PyVal ℚ)) = .ok (.str ['x', '1'], .str ['x', '2']) ∧
    (createDomain id [(['x'], 2)] 1 false : Py (List (List Char × List (PyVal ℚ)))) = .ok [(['x'], [.int 1, .int 2])] ∧
    (identifyTrueFalse id ['x'] [.int 1, .int 2] : Py (PyVal ℚ × PyVal ℚ)) = .error .valueError := by
  decide +kernel

end dom

/-! ### C107 -/

/-- The position of a cell when the first coordinate changes fastest: each coordinate counts as many times as there are cells in
the dimensions before it. -/
def columnMajor (shape idx : List Nat) : Nat := ((List.range shape.length).map fun k => idx.getD k 0 * (shape.take k).prod).sum

/-- The position of a cell when the last coordinate changes fastest -/
def rowMajor (shape idx : List Nat) : Nat := ((List.range shape.length).map fun k => idx.getD k 0 * (shape.drop (k + 1)).prod).sum

theorem ravelF_eq {shape idx : List Nat} (h : ValidIdx shape idx) : ravelF shape idx = columnMajor shape idx := by
  induction h with
  | nil => rfl
  | @cons i c is cs hi _ ih =>
    rw [ravelF, ih, columnMajor, columnMajor, List.length_cons, List.range_succ_eq_map, List.map_cons, List.sum_cons, List.map_map]
    simp only [List.getD_cons_zero, List.take_zero, List.prod_nil, Nat.mul_one, Function.comp_def, List.getD_cons_succ, List.take_succ_cons,
      List.prod_cons, Nat.succ_eq_add_one]
    rw [← List.sum_map_mul_left]
    congr 2
    refine List.map_congr_left fun k _ => ?_
    ring

theorem ravel_eq {shape idx : List Nat} (h : ValidIdx shape idx) : ravel shape idx = rowMajor shape idx := by
  induction h with
  | nil => rfl
  | @cons i c is cs hi _ ih =>
    rw [ravel_cons, ih, rowMajor, rowMajor, List.length_cons, List.range_succ_eq_map, List.map_cons, List.sum_cons, List.map_map]
    simp only [List.getD_cons_zero, List.drop_succ_cons, List.drop_zero, Function.comp_def, List.getD_cons_succ, Nat.succ_eq_add_one, Nat.zero_add]
    rw [Nat.mul_comm]

theorem ravel_append_one {shape idx : List Nat} (h : ValidIdx shape idx) (n i : Nat) : ravel (shape ++ [n]) (idx ++ [i]) = n * ravel shape idx + i := by
  induction h with
  | nil => simp
  | @cons j c is cs hi _ ih =>
    rw [List.cons_append, List.cons_append, ravel_cons, ih, ravel_cons, List.prod_append, List.prod_singleton]
    ring

theorem validIdx_reverse {shape idx : List Nat} (h : ValidIdx shape idx) : ValidIdx shape.reverse idx.reverse := List.rel_reverse h

theorem ravelF_reverse {shape idx : List Nat} (h : ValidIdx shape idx) : ravelF shape idx = ravel shape.reverse idx.reverse := by
  induction h with
  | nil => rfl
  | @cons i c is cs hi hr ih =>
    rw [ravelF, ih, List.reverse_cons, List.reverse_cons, ravel_append_one (validIdx_reverse hr), Nat.add_comm]

theorem ravelF_lt {shape idx : List Nat} (h : ValidIdx shape idx) : ravelF shape idx < shape.prod := by
  rw [ravelF_reverse h, ← List.prod_reverse shape]; exact ravel_lt (validIdx_reverse h)

/-- What is returned -/
theorem changeShapeOrder_ok {X : Type} {values : List X} {shape : List Nat} (h : values.length = shape.prod) :
    ∃ r, changeShapeOrder values shape = .ok r ∧ r.length = values.length ∧
      ∀ idx, ValidIdx shape idx → r[ravel shape idx]? = values[ravelF shape idx]? := by
  have hm : ∀ l : List (List Nat), (∀ c ∈ l, ValidIdx shape c) → ∃ r, l.mapM (fun c => match values[ravelF shape c]? with
      | some x => (.ok x : Py X)
      | none => .error .indexError) = .ok r ∧ r.map some = l.map fun c => values[ravelF shape c]? := by
    intro l
    induction l with
    | nil => exact fun _ => ⟨[], rfl, rfl⟩
    | cons c l ih =>
      intro hl
      obtain ⟨r, h1, h2⟩ := ih fun c hc => hl c (List.mem_cons_of_mem _ hc)
      have hlt : ravelF shape c < values.length := h ▸ ravelF_lt (hl c List.mem_cons_self)
      refine ⟨values[ravelF shape c] :: r, ?_, by rw [List.map_cons, h2, List.map_cons, List.getElem?_eq_getElem hlt]⟩
      rw [List.mapM_cons, List.getElem?_eq_getElem hlt, h1]
      rfl
  obtain ⟨r, h1, h2⟩ := hm (idxSpace shape) fun c hc => mem_idxSpace.1 hc
  have hlen : r.length = (idxSpace shape).length := by
    have := congrArg List.length h2
    simpa using this
  refine ⟨r, by rw [changeShapeOrder, if_neg (not_not.2 h)]; exact h1, by rw [hlen, length_idxSpace, h], fun idx hi => ?_⟩
  have h3 := congrArg (fun l : List (Option X) => l[ravel shape idx]?) h2
  simp only [List.getElem?_map, idxSpace_getElem? hi, Option.map_some] at h3
  have hlt : ravel shape idx < r.length := by rw [hlen, length_idxSpace]; exact ravel_lt hi
  rw [List.getElem?_eq_getElem hlt] at h3 ⊢
  exact Option.some.inj h3

/-- **C107** the value in column-major position comes to the row-major position, for every cell. -/
theorem C107_cells {X : Type} {values : List X} {shape : List Nat} (h : values.length = shape.prod) :
    ∃ r, changeShapeOrder values shape = .ok r ∧ r.length = values.length ∧
      ∀ idx, ValidIdx shape idx → ∃ x, values[columnMajor shape idx]? = some x ∧ r[rowMajor shape idx]? = some x := by
  obtain ⟨r, h1, h2, h3⟩ := changeShapeOrder_ok h
  refine ⟨r, h1, h2, fun idx hi => ?_⟩
  have hlt : ravelF shape idx < values.length := h ▸ ravelF_lt hi
  refine ⟨values[ravelF shape idx], ?_, ?_⟩
  · rw [← ravelF_eq hi, List.getElem?_eq_getElem hlt]
  · rw [← ravel_eq hi, h3 idx hi, List.getElem?_eq_getElem hlt]

/-- **C107** the same with the dimensions reversed takes the values back. -/
theorem C107_back {X : Type} {values r : List X} {shape : List Nat} (h : changeShapeOrder values shape = .ok r) :
    changeShapeOrder r shape.reverse = .ok values := by
  have hl : values.length = shape.prod := by
    by_contra hc
    rw [changeShapeOrder, if_pos hc] at h; cases h
  obtain ⟨r1, h1, h2, h3⟩ := changeShapeOrder_ok hl
  rw [h] at h1
  injection h1 with h1
  subst h1
  obtain ⟨r2, k1, k2, k3⟩ := changeShapeOrder_ok (values := r) (shape := shape.reverse) (by rw [h2, hl, List.prod_reverse])
  rw [k1]
  congr 1
  refine List.ext_getElem? fun i => ?_
  by_cases hi : i < shape.prod
  · have hm : i ∈ (idxSpace shape.reverse).map (ravel shape.reverse) := by
      rw [map_ravel_idxSpace, List.prod_reverse]; exact List.mem_range.2 hi
    obtain ⟨c, hc, rfl⟩ := List.mem_map.1 hm
    have hc' := mem_idxSpace.1 hc
    have hcr : ValidIdx shape c.reverse := by
      have := validIdx_reverse hc'
      rwa [List.reverse_reverse] at this
    rw [k3 c hc', ravelF_reverse hc', List.reverse_reverse, h3 _ hcr, ravelF_reverse hcr, List.reverse_reverse]
  · rw [List.getElem?_eq_none (by rw [k2, h2, hl]; omega), List.getElem?_eq_none (by rw [hl]; omega)]

/-- **C107** refused is exactly a number of values that is not the number of cells. -/
theorem C107_refused {X : Type} (values : List X) (shape : List Nat) :
    (∀ e, changeShapeOrder values shape = .error e → e = .valueError) ∧
    ((∃ e, changeShapeOrder values shape = .error e) ↔ values.length ≠ shape.prod) := by
  by_cases h : values.length = shape.prod
  · obtain ⟨r, h1, _⟩ := changeShapeOrder_ok h
    rw [h1]
    exact ⟨fun e h => (by cases h), ⟨fun ⟨e, h⟩ => (by cases h), fun hc => absurd h hc⟩⟩
  · rw [changeShapeOrder, if_pos h]
    exact ⟨fun e h => (by cases h; rfl), ⟨fun _ => h, fun _ => ⟨_, rfl⟩⟩⟩

/-- **C107** on an example -/
theorem C107_example : changeShapeOrder [0, 1, 2, 3, 4, 5] [2, 3] = .ok [0, 2, 4, 1, 3, 5] ∧
    changeShapeOrder [0, 2, 4, 1, 3, 5] [3, 2] = .ok [0, 1, 2, 3, 4, 5] ∧ changeShapeOrder [0, 1, 2] [2, 2] = (.error .valueError : Py (List Nat)) := by
  decide +kernel

end Props
end Verif
