import Verif.IO.Uai

/-!
# The numbers found in a text that consists of separated numbers
-/

set_option linter.unusedSectionVars false
set_option linter.unusedSimpArgs false

namespace Verif
namespace Uai

/-- A number in positional notation: perhaps a minus sign, digits, perhaps a dot and more digits (no exponent). -/
def Plain (t : Str) : Prop :=
  ∃ sg d1 fr, t = sg ++ (d1 ++ fr) ∧ (sg = [] ∨ sg = ['-']) ∧ d1 ≠ [] ∧ (∀ c ∈ d1, c.isDigit = true) ∧
    (fr = [] ∨ ∃ d2, fr = '.' :: d2 ∧ d2 ≠ [] ∧ ∀ c ∈ d2, c.isDigit = true)

/-- Blank, tab or line break -/
def Sep (c : Char) : Prop := c = ' ' ∨ c = '\t' ∨ c = '\n'

/-- What is needed of a matcher -/
structure Lexer (tk : Str → Option (Str × Str)) : Prop where
  split : ∀ s t r, tk s = some (t, r) → t ++ r = s ∧ t ≠ []
  plain : ∀ t, Plain t → ∀ c, Sep c → ∀ r, tk (t ++ c :: r) = some (t, c :: r)
  skip : ∀ c, c.isDigit = false → c ≠ '.' → c ≠ '-' → c ≠ '+' → ∀ r, tk (c :: r) = none

theorem natText_plain (n : Nat) : Plain (natText n) :=
  ⟨[], natText n, [], by simp, .inl rfl, Nat.toDigits_ne_nil,
    fun _ h => Nat.isDigit_of_mem_toDigits (by decide) (by decide) h, .inl rfl⟩

theorem Sep.not_digit {c : Char} (h : Sep c) : c.isDigit = false ∧ c ≠ '.' ∧ c ≠ '-' ∧ c ≠ '+' := by
  rcases h with rfl | rfl | rfl <;> decide

/-- The part of `takeNum` after the sign -/
def takeBody (sg r : Str) : Option (Str × Str) :=
  let d1 := r.takeWhile Char.isDigit
  let r1 := r.dropWhile Char.isDigit
  let dots := r1.takeWhile (· == '.')
  let r2 := r1.dropWhile (· == '.')
  let d2 := r2.takeWhile Char.isDigit
  if d2 ≠ [] then some (sg ++ d1 ++ dots ++ d2, r2.dropWhile Char.isDigit)
  else if d1 ≠ [] then some (sg ++ d1, r1) else none

theorem takeNum_minus (r : Str) : takeNum ('-' :: r) = takeBody ['-'] r := rfl
theorem takeNum_plus (r : Str) : takeNum ('+' :: r) = takeBody ['+'] r := rfl
theorem takeNum_nil : takeNum [] = takeBody [] [] := rfl
theorem takeNum_other {c : Char} (h1 : c ≠ '-') (h2 : c ≠ '+') (r : Str) : takeNum (c :: r) = takeBody [] (c :: r) := by
  rw [takeNum, takeBody]
  · intro d h
    exact h1 (List.cons.inj h).1
  · intro d h
    exact h2 (List.cons.inj h).1

theorem takeBody_split {sg r t r' : Str} (h : takeBody sg r = some (t, r')) : t ++ r' = sg ++ r ∧ t ≠ [] := by
  rw [takeBody] at h
  split at h
  · rename_i h2
    simp only [Option.some.injEq, Prod.mk.injEq] at h
    obtain ⟨rfl, rfl⟩ := h
    refine ⟨by simp only [List.append_assoc, List.takeWhile_append_dropWhile], fun h => h2 ?_⟩
    simp only [List.append_eq_nil_iff] at h
    exact h.2
  · split at h
    · rename_i h1
      simp only [Option.some.injEq, Prod.mk.injEq] at h
      obtain ⟨rfl, rfl⟩ := h
      refine ⟨by simp only [List.append_assoc, List.takeWhile_append_dropWhile], fun h => h1 ?_⟩
      simp only [List.append_eq_nil_iff] at h
      exact h.2
    · simp at h

theorem takeWhile_all {p : Char → Bool} {d : Str} (hd : ∀ c ∈ d, p c = true) {c : Char} (hc : p c = false) (r : Str) :
    (d ++ c :: r).takeWhile p = d ∧ (d ++ c :: r).dropWhile p = c :: r := by
  rw [List.takeWhile_append_of_pos hd, List.dropWhile_append_of_pos hd]
  simp [hc]

theorem takeBody_plain {sg d1 fr : Str} (h1 : d1 ≠ []) (hd : ∀ c ∈ d1, c.isDigit = true)
    (hfr : fr = [] ∨ ∃ d2, fr = '.' :: d2 ∧ d2 ≠ [] ∧ ∀ c ∈ d2, c.isDigit = true) {c : Char} (hc : Sep c) (r : Str) :
    takeBody sg (d1 ++ fr ++ c :: r) = some (sg ++ (d1 ++ fr), c :: r) := by
  obtain ⟨c1, c2, _, _⟩ := hc.not_digit
  have c2' : (c == '.') = false := by simp [c2]
  rcases hfr with rfl | ⟨d2, rfl, h2, hd2⟩
  · rw [List.append_nil, takeBody, (takeWhile_all hd c1 r).1, (takeWhile_all hd c1 r).2]
    simp [c2', c1, h1]
  · have e : d1 ++ '.' :: d2 ++ c :: r = d1 ++ '.' :: (d2 ++ c :: r) := by simp
    have hdot : (Char.isDigit '.') = false := by decide
    rw [e, takeBody, (takeWhile_all hd hdot _).1, (takeWhile_all hd hdot _).2]
    obtain ⟨x, d2, rfl⟩ := List.exists_cons_of_ne_nil h2
    have hx : (x == '.') = false := by
      rw [beq_eq_false_iff_ne]
      rintro rfl
      exact absurd (hd2 '.' List.mem_cons_self) (by decide)
    have g1 : ('.' :: (x :: d2 ++ c :: r)).takeWhile (· == '.') = ['.'] := by simp [hx]
    have g2 : ('.' :: (x :: d2 ++ c :: r)).dropWhile (· == '.') = x :: d2 ++ c :: r := by simp [hx]
    simp only [g1, g2, (takeWhile_all hd2 c1 r).1, (takeWhile_all hd2 c1 r).2]
    simp

theorem takeNum_lexer : Lexer takeNum := by
  refine ⟨fun s t r h => ?_, ?_, ?_⟩
  · cases s with
    | nil => rw [takeNum_nil] at h; simpa using takeBody_split h
    | cons c s =>
      by_cases h1 : c = '-'
      · subst h1; rw [takeNum_minus] at h; simpa using takeBody_split h
      · by_cases h2 : c = '+'
        · subst h2; rw [takeNum_plus] at h; simpa using takeBody_split h
        · rw [takeNum_other h1 h2] at h; simpa using takeBody_split h
  · rintro t ⟨sg, d1, fr, rfl, hsg, h1, hd, hfr⟩ c hc r
    rcases hsg with rfl | rfl
    · obtain ⟨x, d, rfl⟩ := List.exists_cons_of_ne_nil h1
      have hx := hd x List.mem_cons_self
      have := takeBody_plain (sg := []) h1 hd hfr hc r
      rw [List.nil_append]
      rw [List.nil_append] at this
      simp only [List.cons_append] at this ⊢
      rw [takeNum_other _ _]
      · exact this
      · rintro rfl; exact absurd hx (by decide)
      · rintro rfl; exact absurd hx (by decide)
    · have := takeBody_plain (sg := ['-']) h1 hd hfr hc r
      rw [List.append_assoc, List.singleton_append, takeNum_minus, this]
  · intro c h1 h2 h3 h4 r
    rw [takeNum_other h3 h4, takeBody]
    simp [h1, h2]

/-! ### `findall` -/

variable {tk : Str → Option (Str × Str)}

theorem findGo_fuel (h : Lexer tk) : ∀ n s, s.length ≤ n → findGo tk n s = numbers tk s := by
  intro n
  induction n using Nat.strong_induction_on with
  | _ n ih =>
    intro s hs
    cases s with
    | nil => cases n <;> rfl
    | cons c s =>
      obtain ⟨n, rfl⟩ : ∃ m, n = m + 1 := ⟨n - 1, by simp at hs; omega⟩
      simp only [List.length_cons, Nat.add_le_add_iff_right] at hs
      rw [numbers, List.length_cons, findGo, findGo]
      rcases hx : tk (c :: s) with _ | ⟨t, r⟩
      · simp only
        rw [ih n (by omega) s hs]; rfl
      · simp only
        obtain ⟨h1, h2⟩ := h.split _ _ _ hx
        have hl : r.length ≤ s.length := by
          have := congrArg List.length h1
          simp only [List.length_append, List.length_cons] at this
          have := List.length_pos_iff.2 h2
          omega
        rw [ih n (by omega) r (by omega)]
        rcases Nat.lt_or_eq_of_le hs with hlt | heq
        · rw [ih s.length (by omega) r hl]
        · rw [heq, ih n (by omega) r (by omega)]

theorem numbers_skip (h : Lexer tk) {c : Char} {s : Str} (hc : tk (c :: s) = none) : numbers tk (c :: s) = numbers tk s := by
  rw [numbers, List.length_cons, findGo, hc]
  rfl

theorem numbers_sep (h : Lexer tk) {c : Char} (hc : Sep c) (s : Str) : numbers tk (c :: s) = numbers tk s := by
  obtain ⟨h1, h2, h3, h4⟩ := hc.not_digit
  exact numbers_skip h (h.skip c h1 h2 h3 h4 s)

theorem numbers_plain (h : Lexer tk) {t : Str} (ht : Plain t) {c : Char} (hc : Sep c) (s : Str) :
    numbers tk (t ++ c :: s) = t :: numbers tk s := by
  have hx := h.plain t ht c hc s
  obtain ⟨h1, h2⟩ := h.split _ _ _ hx
  obtain ⟨x, t, rfl⟩ := List.exists_cons_of_ne_nil h2
  rw [List.cons_append] at hx ⊢
  rw [numbers, List.length_cons, findGo, hx]
  simp only
  rw [findGo_fuel h _ _ (by simp), numbers_sep h hc]

theorem numbers_join (h : Lexer tk) {l : List Str} (hl : ∀ t ∈ l, Plain t) {c : Char} (hc : Sep c) (s : Str) :
    numbers tk (pyJoin [' '] l ++ c :: s) = l ++ numbers tk s := by
  induction l with
  | nil => simp only [pyJoin, List.nil_append]; exact numbers_sep h hc s
  | cons x l ih =>
    cases l with
    | nil => simp only [pyJoin]; exact numbers_plain h (hl x List.mem_cons_self) hc s
    | cons y l =>
      have e : pyJoin [' '] (x :: y :: l) ++ c :: s = x ++ ' ' :: (pyJoin [' '] (y :: l) ++ c :: s) := by simp [pyJoin]
      rw [e, numbers_plain h (hl x List.mem_cons_self) (.inl rfl), ih fun t ht => hl t (List.mem_cons_of_mem _ ht)]
      simp

/-- The tokens of a line -/
def lineToks (l : List Str) : List Str := natText l.length :: l

theorem numbers_line (h : Lexer tk) {l : List Str} (hl : ∀ t ∈ l, Plain t) (s : Str) :
    numbers tk (line l ++ s) = lineToks l ++ numbers tk s := by
  have e : line l ++ s = natText l.length ++ '\t' :: (pyJoin [' '] l ++ '\n' :: s) := by simp [line]
  rw [e, numbers_plain h (natText_plain _) (.inr (.inl rfl)), numbers_join h hl (.inr (.inr rfl))]
  rfl

theorem numbers_lines (h : Lexer tk) {ls : List (List Str)} (hl : ∀ l ∈ ls, ∀ t ∈ l, Plain t) (s : Str) :
    numbers tk ((ls.map line).flatten ++ s) = ls.flatMap lineToks ++ numbers tk s := by
  induction ls with
  | nil => simp
  | cons l ls ih =>
    rw [List.map_cons, List.flatten_cons, List.append_assoc, numbers_line h (hl l List.mem_cons_self),
      ih fun l' h' => hl l' (List.mem_cons_of_mem _ h')]
    simp

theorem numbers_label (h : Lexer tk) {l : Str} (hl : ∀ c ∈ l, c.isDigit = false ∧ c ≠ '.' ∧ c ≠ '-' ∧ c ≠ '+') (s : Str) :
    numbers tk (l ++ s) = numbers tk s := by
  induction l with
  | nil => rfl
  | cons c l ih =>
    obtain ⟨h1, h2, h3, h4⟩ := hl c List.mem_cons_self
    rw [List.cons_append, numbers_skip h (h.skip c h1 h2 h3 h4 _)]
    exact ih fun c hc => hl c (List.mem_cons_of_mem _ hc)

theorem numbers_text (h : Lexer tk) {label : Str} (hlab : ∀ c ∈ label, c.isDigit = false ∧ c ≠ '.' ∧ c ≠ '-' ∧ c ≠ '+')
    (n : Nat) (cards : List Nat) (nf : Nat) (scopes : List (List Nat)) {vals : List (List Str)}
    (hv : ∀ l ∈ vals, ∀ t ∈ l, Plain t) :
    numbers tk (text label n cards nf scopes vals) =
      natText n :: (cards.map natText ++ natText nf :: (scopes.flatMap (fun s => lineToks (s.map natText)) ++ vals.flatMap lineToks)) := by
  have hs : ∀ l ∈ scopes.map (fun s => s.map natText), ∀ t ∈ l, Plain t := by
    intro l hl t ht
    obtain ⟨s, _, rfl⟩ := List.mem_map.1 hl
    obtain ⟨k, _, rfl⟩ := List.mem_map.1 ht
    exact natText_plain k
  have hc : ∀ t ∈ cards.map natText, Plain t := by
    intro t ht
    obtain ⟨k, _, rfl⟩ := List.mem_map.1 ht
    exact natText_plain k
  have hnl : Sep '\n' := .inr (.inr rfl)
  have e : (scopes.map fun s => line (s.map natText)).flatten = ((scopes.map (fun s => s.map natText)).map line).flatten := by
    rw [List.map_map]; rfl
  have ev : (vals.map line).flatten = (vals.map line).flatten ++ [] := by simp
  rw [text, numbers_label h hlab, numbers_sep h hnl, numbers_plain h (natText_plain n) hnl, numbers_join h hc hnl,
    numbers_plain h (natText_plain nf) hnl, e, numbers_lines h hs, numbers_sep h hnl, ev, numbers_lines h hv]
  simp [numbers, findGo, List.flatMap_map]

end Uai
end Verif
