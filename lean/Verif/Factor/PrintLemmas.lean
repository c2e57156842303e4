import Verif.Factor.Print
import Verif.Props.Util
import Verif.Props.Domains
import Mathlib.Tactic.FinCases

/-!
# Texts that determine what was written: helper lemmas for C115
-/

set_option linter.unusedSectionVars false
set_option linter.unusedSimpArgs false

namespace Verif
namespace Props

/-- The name can be used in the notations. -/
def Printable (v : Str) : Prop := v ≠ [] ∧ ∀ c ∈ [',', '|', '(', ')', ':', '[', ']'], c ∉ v

instance (v : Str) : Decidable (Printable v) := inferInstanceAs (Decidable (_ ∧ _))

/-! ### Texts that determine what was written -/

theorem cut {c : Char} : ∀ {x y r r' : Str}, c ∉ x → c ∉ y → x ++ c :: r = y ++ c :: r' → x = y ∧ r = r'
  | [], [], _, _, _, _, h => ⟨rfl, by simpa using h⟩
  | [], d :: y, _, _, _, hy, h => by
    simp only [List.nil_append, List.cons_append, List.cons.injEq] at h
    exact absurd (h.1 ▸ List.mem_cons_self) hy
  | d :: x, [], _, _, hx, _, h => by
    simp only [List.nil_append, List.cons_append, List.cons.injEq] at h
    exact absurd (h.1 ▸ List.mem_cons_self) hx
  | d :: x, e :: y, _, _, hx, hy, h => by
    simp only [List.cons_append, List.cons.injEq] at h
    obtain ⟨h1, h2⟩ := cut (fun hc => hx (List.mem_cons_of_mem _ hc)) (fun hc => hy (List.mem_cons_of_mem _ hc)) h.2
    exact ⟨by rw [h.1, h1], h2⟩

theorem join_ne_nil {c : Char} {l : List Str} (hl : l ≠ []) (h0 : ∀ x ∈ l, x ≠ []) : pyJoin [c] l ≠ [] := by
  cases l with
  | nil => exact absurd rfl hl
  | cons x l =>
    cases l with
    | nil => exact h0 x List.mem_cons_self
    | cons y l => simp [pyJoin]

theorem join_inj {c : Char} {l l' : List Str} (h : ∀ x ∈ l, x ≠ [] ∧ c ∉ x) (h' : ∀ x ∈ l', x ≠ [] ∧ c ∉ x) (e : pyJoin [c] l = pyJoin [c] l') : l = l' := by
  by_cases hl : l = []
  · by_cases hl' : l' = []
    · rw [hl, hl']
    · rw [hl] at e
      exact absurd e.symm (join_ne_nil hl' fun x hx => (h' x hx).1)
  · by_cases hl' : l' = []
    · rw [hl'] at e
      exact absurd e (join_ne_nil hl fun x hx => (h x hx).1)
    · rw [← split_join_char l hl fun x hx => (h x hx).2, e, split_join_char l' hl' fun x hx => (h' x hx).2]

theorem not_mem_join {c d : Char} (hcd : d ≠ c) {l : List Str} (h : ∀ x ∈ l, d ∉ x) : d ∉ pyJoin [c] l := fun hd => by
  rcases mem_pyJoin hd with hd | ⟨x, hx, hd⟩
  · exact hcd (by simpa using hd)
  · exact h x hx hd

/-- Two lists, the second only when it is not empty. -/
theorem bar_inj {c : Char} (hc : '|' ≠ c) {x y : Str} {l l' : List Str} (hx : '|' ∉ x) (hy : '|' ∉ y) (hl : ∀ z ∈ l, z ≠ [] ∧ c ∉ z) (hl' : ∀ z ∈ l', z ≠ [] ∧ c ∉ z)
    (e : x ++ (if l.length > 0 then '|' :: pyJoin [c] l else []) = y ++ (if l'.length > 0 then '|' :: pyJoin [c] l' else [])) : x = y ∧ l = l' := by
  by_cases h : l.length > 0 <;> by_cases h' : l'.length > 0
  · rw [if_pos h, if_pos h'] at e
    obtain ⟨h1, h2⟩ := cut hx hy e
    exact ⟨h1, join_inj hl hl' h2⟩
  · rw [if_pos h, if_neg h', List.append_nil] at e
    exact absurd (e ▸ by simp) hy
  · rw [if_neg h, if_pos h', List.append_nil] at e
    exact absurd (e ▸ by simp) hx
  · rw [if_neg h, if_neg h', List.append_nil, List.append_nil] at e
    exact ⟨e, by rw [List.length_eq_zero_iff.1 (by omega : l.length = 0), List.length_eq_zero_iff.1 (by omega : l'.length = 0)]⟩

theorem Printable.no {v : Str} (h : Printable v) (c : Char) (hc : c ∈ [',', '|', '(', ')', ':', '[', ']'] := by decide) : c ∉ v := h.2 c hc

theorem sides_inj {l r l' r' : List Str} (hl : ∀ v ∈ l, Printable v) (hr : ∀ v ∈ r, Printable v) (hl' : ∀ v ∈ l', Printable v) (hr' : ∀ v ∈ r', Printable v)
    (e : sides l r = sides l' r') : l = l' ∧ r = r' := by
  obtain ⟨h1, h2⟩ := bar_inj (c := ',') (by decide) (not_mem_join (by decide) fun v hv => (hl v hv).no '|') (not_mem_join (by decide) fun v hv => (hl' v hv).no '|')
    (fun v hv => ⟨(hr v hv).1, (hr v hv).no ','⟩) (fun v hv => ⟨(hr' v hv).1, (hr' v hv).no ','⟩) e
  exact ⟨join_inj (fun v hv => ⟨(hl v hv).1, (hl v hv).no ','⟩) (fun v hv => ⟨(hl' v hv).1, (hl' v hv).no ','⟩) h1, h2⟩

theorem sides_no {c : Char} (hc : c ≠ ',') (hc' : c ≠ '|') {l r : List Str} (hl : ∀ v ∈ l, c ∉ v) (hr : ∀ v ∈ r, c ∉ v) : c ∉ sides l r := by
  rw [sides, List.mem_append]
  rintro (h | h)
  · exact not_mem_join hc hl h
  · split at h
    · rcases List.mem_cons.1 h with h | h
      · exact hc' h
      · exact not_mem_join hc hr h
    · cases h

theorem digit_of_mem {c : Char} {n : Nat} (h : c ∈ cardText n) : c.isDigit = true := by
  rw [cardText] at h
  exact Nat.isDigit_of_mem_toDigits (by decide) (by decide) h

theorem card_no {c : Char} (hc : c.isDigit = false) (n : Nat) : c ∉ cardText n := fun h => by
  rw [digit_of_mem h] at hc; cases hc

theorem map_inj_on {α β : Type} {f : α → β} : ∀ {l l' : List α}, (∀ x ∈ l, ∀ y ∈ l', f x = f y → x = y) → l.map f = l'.map f → l = l'
  | [], [], _, _ => rfl
  | [], _ :: _, _, h => by simp at h
  | _ :: _, [], _, h => by simp at h
  | x :: l, y :: l', hi, h => by
    simp only [List.map_cons, List.cons.injEq] at h
    rw [hi x List.mem_cons_self y List.mem_cons_self h.1,
      map_inj_on (fun a ha b hb => hi a (List.mem_cons_of_mem _ ha) b (List.mem_cons_of_mem _ hb)) h.2]

variable {S : Type} [DecidableEq S] {α : Type}

/-! ### Numbers of states -/

/-- Names and numbers of states. -/
def shownCards (d : Dom Str S) : List (Str × Nat) := d.map fun p => (p.1, p.2.length)

/-- Names and numbers of states, where the states are known. -/
def shownDomains (l : List (Str × Option (List S))) : List (Str × Option Nat) := l.map fun p => (p.1, p.2.map List.length)

def optCard : Option Nat → Str
  | none => []
  | some n => cardText n

theorem optCard_no {c : Char} (hc : c.isDigit = false) (o : Option Nat) : c ∉ optCard o := by
  cases o with
  | none => simp [optCard]
  | some n => exact card_no hc n

theorem optCard_inj {o o' : Option Nat} (h : optCard o = optCard o') : o = o' := by
  cases o with
  | none =>
    cases o' with
    | none => rfl
    | some n => exact absurd h.symm Nat.toDigits_ne_nil
  | some m =>
    cases o' with
    | none => exact absurd h Nat.toDigits_ne_nil
    | some n => rw [toDigits_inj h]

theorem domText_eq (l : List (Str × Option (List S))) : domText l = pyJoin [','] ((shownDomains l).map fun p => p.1 ++ ':' :: optCard p.2) := by
  rw [domText, shownDomains, List.map_map]
  congr 1
  refine List.map_congr_left fun p _ => ?_
  cases h : p.2 <;> simp [Function.comp, optCard, h]

theorem item_ok {v : Str} (hv : Printable v) (o : Option Nat) : v ++ ':' :: optCard o ≠ [] ∧ ',' ∉ v ++ ':' :: optCard o := by
  refine ⟨by simp, fun h => ?_⟩
  rcases List.mem_append.1 h with h | h
  · exact hv.no ',' (by decide) h
  · rcases List.mem_cons.1 h with h | h
    · exact absurd h (by decide)
    · exact optCard_no (by decide) o h

theorem names_inj {l l' : List (Str × Option Nat)} (h : ∀ p ∈ l, Printable p.1) (h' : ∀ p ∈ l', Printable p.1)
    (e : pyJoin [','] (l.map fun p => p.1 ++ ':' :: optCard p.2) = pyJoin [','] (l'.map fun p => p.1 ++ ':' :: optCard p.2)) : l = l' := by
  refine map_inj_on (fun p hp q hq hpq => ?_) (join_inj (fun x hx => ?_) (fun x hx => ?_) e)
  · obtain ⟨h1, h2⟩ := cut ((h p hp).no ':') ((h' q hq).no ':') hpq
    exact Prod.ext h1 (optCard_inj h2)
  · obtain ⟨p, hp, rfl⟩ := List.mem_map.1 hx
    exact item_ok (h p hp) _
  · obtain ⟨p, hp, rfl⟩ := List.mem_map.1 hx
    exact item_ok (h' p hp) _

theorem mem_shownDomains {l : List (Str × Option (List S))} (h : ∀ v ∈ Dict.keys l, Printable v) : ∀ p ∈ shownDomains l, Printable p.1 := by
  intro p hp
  obtain ⟨q, hq, rfl⟩ := List.mem_map.1 hp
  exact h _ (Dict.mem_keys_of_mem hq)

theorem domText_inj {l l' : List (Str × Option (List S))} (h : ∀ v ∈ Dict.keys l, Printable v) (h' : ∀ v ∈ Dict.keys l', Printable v)
    (e : domText l = domText l') : shownDomains l = shownDomains l' := by
  rw [domText_eq, domText_eq] at e
  exact names_inj (mem_shownDomains h) (mem_shownDomains h') e

theorem domText_no {c : Char} (hc : c ∈ ['|', '(', ')', '[', ']']) {l : List (Str × Option (List S))} (h : ∀ v ∈ Dict.keys l, Printable v) : c ∉ domText l := by
  have hd : c ≠ ',' ∧ c ≠ ':' ∧ c.isDigit = false ∧ c ∈ [',', '|', '(', ')', ':', '[', ']'] := by
    fin_cases hc <;> decide
  rw [domText_eq]
  refine not_mem_join hd.1 fun x hx => ?_
  obtain ⟨p, hp, rfl⟩ := List.mem_map.1 hx
  intro hm
  rcases List.mem_append.1 hm with hm | hm
  · exact (mem_shownDomains h p hp).no c hd.2.2.2 hm
  · rcases List.mem_cons.1 hm with hm | hm
    · exact hd.2.1 hm
    · exact optCard_no hd.2.2.1 _ hm

theorem cardStr_eq (d : Dom Str S) : cardStr d = domText (d.map fun p => (p.1, some p.2)) := by
  rw [cardStr, domText, List.map_map]
  rfl

theorem shownCards_eq (d : Dom Str S) : shownDomains (d.map fun p => (p.1, some p.2)) = (shownCards d).map fun p => (p.1, some p.2) := by
  rw [shownDomains, shownCards, List.map_map, List.map_map]
  rfl

theorem keys_some (d : Dom Str S) : Dict.keys (d.map fun p => (p.1, some p.2)) = Dict.keys d := by
  simp [Dict.keys, Function.comp_def]

theorem cardStr_inj {d d' : Dom Str S} (h : ∀ v ∈ Dict.keys d, Printable v) (h' : ∀ v ∈ Dict.keys d', Printable v) (e : cardStr d = cardStr d') : shownCards d = shownCards d' := by
  rw [cardStr_eq, cardStr_eq] at e
  have := domText_inj (by rw [keys_some]; exact h) (by rw [keys_some]; exact h') e
  rw [shownCards_eq, shownCards_eq] at this
  refine map_inj_on (fun p _ q _ hpq => ?_) this
  simp only [Prod.mk.injEq, Option.some.injEq] at hpq
  exact Prod.ext hpq.1 hpq.2

theorem cardStr_congr {d d' : Dom Str S} (h : shownCards d = shownCards d') : cardStr d = cardStr d' := by
  rw [cardStr_eq, cardStr_eq, domText_eq, domText_eq, shownCards_eq, shownCards_eq, h]

theorem cardStr_no {c : Char} (hc : c ∈ ['|', '(', ')', '[', ']']) {d : Dom Str S} (h : ∀ v ∈ Dict.keys d, Printable v) : c ∉ cardStr d := by
  rw [cardStr_eq]
  exact domText_no hc (by rw [keys_some]; exact h)

/-! ### Values -/

/-- The first four values, and the last one when there are more. -/
def shownValues (vals : List α) : List α × Option α := (vals.take 4, if vals.length > 4 then vals.getLast? else none)

/-- The texts of the values can be told apart. -/
structure ShowOk (sh : α → Str) (vals : List α) : Prop where
  ok : ∀ x ∈ vals, sh x ≠ [] ∧ ',' ∉ sh x ∧ ']' ∉ sh x

def items (sh : α → Str) (p : List α × Option α) : List Str :=
  p.1.map sh ++ (match p.2 with | none => [] | some x => ["...".toList, sh x])

theorem join_append_two {l : List Str} (hl : l ≠ []) (x y : Str) : pyJoin [','] (l ++ [x, y]) = pyJoin [','] l ++ (',' :: x ++ ',' :: y) := by
  induction l with
  | nil => exact absurd rfl hl
  | cons z l ih =>
    cases l with
    | nil => simp [pyJoin]
    | cons w l =>
      have := ih (by simp)
      rw [List.cons_append] at this
      rw [List.cons_append, List.cons_append, pyJoin, this, pyJoin]
      simp

theorem valuesStr_eq (sh : α → Str) (vals : List α) : valuesStr sh vals = pyJoin [','] (items sh (shownValues vals)) := by
  rw [valuesStr, items, shownValues]
  by_cases h : vals.length > 4
  · have hne : vals ≠ [] := by rintro rfl; simp at h
    simp only [if_pos h, List.getLast?_eq_some_getLast hne]
    rw [join_append_two (by
      intro hc
      have := congrArg List.length hc
      simp at this
      exact hne this)]
    simp
  · simp only [if_neg h, List.append_nil]

theorem last_of_gt {vals : List α} (h : vals.length > 4) : ∃ x ∈ vals, vals.getLast? = some x := by
  have hne : vals ≠ [] := by rintro rfl; simp at h
  exact ⟨_, List.getLast_mem hne, List.getLast?_eq_some_getLast hne⟩

theorem items_ok {sh : α → Str} {vals : List α} (h : ShowOk sh vals) : ∀ x ∈ items sh (shownValues vals), x ≠ [] ∧ ',' ∉ x ∧ ']' ∉ x := by
  intro x hx
  rw [items, shownValues, List.mem_append] at hx
  rcases hx with hx | hx
  · obtain ⟨y, hy, rfl⟩ := List.mem_map.1 hx
    exact h.ok y (List.mem_of_mem_take hy)
  · by_cases h4 : vals.length > 4
    · obtain ⟨y, hy, e⟩ := last_of_gt h4
      simp only [if_pos h4, e, List.mem_cons, List.not_mem_nil, or_false] at hx
      rcases hx with rfl | rfl
      · decide
      · exact h.ok y hy
    · simp only [if_neg h4] at hx
      cases hx

theorem valuesStr_no {sh : α → Str} {vals : List α} (h : ShowOk sh vals) : ']' ∉ valuesStr sh vals := by
  rw [valuesStr_eq]
  exact not_mem_join (by decide) fun x hx => (items_ok h x hx).2.2

theorem valuesStr_inj {sh : α → Str} (hs : Function.Injective sh) {vals vals' : List α} (h : ShowOk sh vals) (h' : ShowOk sh vals')
    (e : valuesStr sh vals = valuesStr sh vals') : shownValues vals = shownValues vals' := by
  rw [valuesStr_eq, valuesStr_eq] at e
  have := join_inj (fun x hx => ⟨(items_ok h x hx).1, (items_ok h x hx).2.1⟩) (fun x hx => ⟨(items_ok h' x hx).1, (items_ok h' x hx).2.1⟩) e
  rw [items, items] at this
  by_cases h4 : vals.length > 4 <;> by_cases h4' : vals'.length > 4
  · obtain ⟨y, _, ey⟩ := last_of_gt h4
    obtain ⟨y', _, ey'⟩ := last_of_gt h4'
    simp only [shownValues, if_pos h4, if_pos h4', ey, ey'] at this ⊢
    have hlen : ((vals.take 4).map sh).length = ((vals'.take 4).map sh).length := by
      rw [List.length_map, List.length_map, List.length_take, List.length_take]; omega
    obtain ⟨h1, h2⟩ := List.append_inj this hlen
    simp only [List.cons.injEq, and_true] at h2
    rw [List.map_injective_iff.2 hs h1, hs h2.2]
  · obtain ⟨y, _, ey⟩ := last_of_gt h4
    simp only [shownValues, if_pos h4, if_neg h4', ey] at this
    have := congrArg List.length this
    simp at this
    omega
  · obtain ⟨y', _, ey'⟩ := last_of_gt h4'
    simp only [shownValues, if_neg h4, if_pos h4', ey'] at this
    have := congrArg List.length this
    simp at this
    omega
  · simp only [shownValues, if_neg h4, if_neg h4', List.append_nil] at this ⊢
    rw [List.map_injective_iff.2 hs this]

theorem valuesStr_congr (sh : α → Str) {vals vals' : List α} (h : shownValues vals = shownValues vals') : valuesStr sh vals = valuesStr sh vals' := by
  rw [valuesStr_eq, valuesStr_eq, h]

/-! ### Whole texts -/

theorem lit {p x y : Str} (h : p ++ x = p ++ y) : x = y := List.append_cancel_left h

/-- `…(card), …[vals]…` -/
theorem probName_cut {l r l' r' : List Str} (hl : ∀ v ∈ l, Printable v) (hr : ∀ v ∈ r, Printable v) (hl' : ∀ v ∈ l', Printable v) (hr' : ∀ v ∈ r', Printable v)
    {x y : Str} (e : probName l r ++ x = probName l' r' ++ y) : l = l' ∧ r = r' ∧ x = y := by
  simp only [probName, List.append_assoc, List.singleton_append] at e
  obtain ⟨h1, h2⟩ := cut (sides_no (by decide) (by decide) (fun v hv => (hl v hv).no ')') fun v hv => (hr v hv).no ')')
    (sides_no (by decide) (by decide) (fun v hv => (hl' v hv).no ')') fun v hv => (hr' v hv).no ')') (lit e)
  obtain ⟨h3, h4⟩ := sides_inj hl hr hl' hr' h1
  exact ⟨h3, h4, h2⟩

theorem detName_cut {l r l' r' : List Str} (h1 : l.length = 1) (h1' : l'.length = 1) (hl : ∀ v ∈ l, Printable v) (hr : ∀ v ∈ r, Printable v)
    (hl' : ∀ v ∈ l', Printable v) (hr' : ∀ v ∈ r', Printable v) {x y : Str} (e : detName l r ++ x = detName l' r' ++ y) : l = l' ∧ r = r' ∧ x = y := by
  obtain ⟨a, rfl⟩ := List.length_eq_one_iff.1 h1
  obtain ⟨b, rfl⟩ := List.length_eq_one_iff.1 h1'
  have key : ∀ r : List Str, (if r.length > 0 then pyJoin [','] r else []) = pyJoin [','] r := fun r => by
    cases r <;> simp [pyJoin]
  simp only [detName, key, pyJoin, List.cons_append, List.cons.injEq, true_and, List.append_assoc, List.singleton_append] at e
  obtain ⟨h2, h3⟩ := cut ((hl a (by simp)).no '(') ((hl' b (by simp)).no '(') e
  obtain ⟨h4, h5⟩ := cut (not_mem_join (by decide) fun v hv => (hr v hv).no ')') (not_mem_join (by decide) fun v hv => (hr' v hv).no ')') h3
  exact ⟨by rw [h2], join_inj (fun v hv => ⟨(hr v hv).1, (hr v hv).no ','⟩) (fun v hv => ⟨(hr' v hv).1, (hr' v hv).no ','⟩) h4, h5⟩

theorem cardStr_cut {d d' : Dom Str S} (h : ∀ v ∈ Dict.keys d, Printable v) (h' : ∀ v ∈ Dict.keys d', Printable v) {x y : Str}
    (e : cardStr d ++ ')' :: x = cardStr d' ++ ')' :: y) : shownCards d = shownCards d' ∧ x = y := by
  obtain ⟨h1, h2⟩ := cut (cardStr_no (by decide) h) (cardStr_no (by decide) h') e
  exact ⟨cardStr_inj h h' h1, h2⟩

theorem valuesStr_cut {sh : α → Str} (hs : Function.Injective sh) {vals vals' : List α} (h : ShowOk sh vals) (h' : ShowOk sh vals') {x y : Str}
    (e : valuesStr sh vals ++ ']' :: x = valuesStr sh vals' ++ ']' :: y) : shownValues vals = shownValues vals' ∧ x = y := by
  obtain ⟨h1, h2⟩ := cut (valuesStr_no h) (valuesStr_no h') e
  exact ⟨valuesStr_inj hs h h' h1, h2⟩

/-! ### Graphs -/

theorem brackets_inj {l l' : List Str} (h : ∀ x ∈ l, ']' ∉ x) (h' : ∀ x ∈ l', ']' ∉ x)
    (e : (l.map fun x => '[' :: x ++ [']']).flatten = (l'.map fun x => '[' :: x ++ [']']).flatten) : l = l' := by
  induction l generalizing l' with
  | nil =>
    cases l' with
    | nil => rfl
    | cons y l' => simp at e
  | cons x l ih =>
    cases l' with
    | nil => simp at e
    | cons y l' =>
      simp only [List.map_cons, List.flatten_cons, List.cons_append, List.cons.injEq, true_and, List.append_assoc, List.singleton_append] at e
      obtain ⟨h1, h2⟩ := cut (h x List.mem_cons_self) (h' y List.mem_cons_self) e
      rw [h1, ih (fun z hz => h z (List.mem_cons_of_mem _ hz)) (fun z hz => h' z (List.mem_cons_of_mem _ hz)) h2]

/-- Nodes and, for each of them, its parents. -/
def shownGraph (g : DiGraph Str) : List (Str × List Str) := g.nodes.map fun v => (v, g.pred v)

def insideOf (p : Str × List Str) : Str := p.1 ++ (if p.2.length > 0 then '|' :: pyJoin [':'] p.2 else [])

theorem dagText_eq (g : DiGraph Str) : dag2str g = .ok ((((shownGraph g).map insideOf).map fun x => '[' :: x ++ [']']).flatten) := by
  rw [dag2str_eq, shownGraph, List.map_map, List.map_map]
  rfl

theorem dagText_inj {g g' : DiGraph Str} (hg : g.WF) (hg' : g'.WF) (h : ∀ v ∈ g.nodes, Printable v) (h' : ∀ v ∈ g'.nodes, Printable v)
    (e : dag2str g = dag2str g') : shownGraph g = shownGraph g' := by
  have hp : ∀ {g : DiGraph Str}, g.WF → (∀ v ∈ g.nodes, Printable v) → ∀ p ∈ shownGraph g, Printable p.1 ∧ ∀ v ∈ p.2, Printable v := by
    intro g hg h p hp
    obtain ⟨v, hv, rfl⟩ := List.mem_map.1 hp
    exact ⟨h v hv, fun w hw => h w (hg.ends _ (DiGraph.mem_pred.1 hw)).1⟩
  have hno : ∀ {g : DiGraph Str}, g.WF → (∀ v ∈ g.nodes, Printable v) → ∀ x ∈ (shownGraph g).map insideOf, ']' ∉ x := by
    intro g hg h x hx
    obtain ⟨p, hpp, rfl⟩ := List.mem_map.1 hx
    obtain ⟨h1, h2⟩ := hp hg h p hpp
    intro hm
    rw [insideOf] at hm
    rcases List.mem_append.1 hm with hm | hm
    · exact h1.no ']' (by decide) hm
    · split at hm
      · rcases List.mem_cons.1 hm with hm | hm
        · exact absurd hm (by decide)
        · exact not_mem_join (by decide) (fun v hv => (h2 v hv).no ']') hm
      · cases hm
  rw [dagText_eq, dagText_eq] at e
  refine map_inj_on (fun p hpp q hqq hpq => ?_) (brackets_inj (hno hg h) (hno hg' h') (Except.ok.inj e))
  obtain ⟨h1, h2⟩ := hp hg h p hpp
  obtain ⟨h3, h4⟩ := hp hg' h' q hqq
  obtain ⟨h5, h6⟩ := bar_inj (c := ':') (by decide) (h1.no '|') (h3.no '|') (fun v hv => ⟨(h2 v hv).1, (h2 v hv).no ':'⟩) (fun v hv => ⟨(h4 v hv).1, (h4 v hv).no ':'⟩) hpq
  exact Prod.ext h5 h6

theorem dagText_congr {g g' : DiGraph Str} (h : shownGraph g = shownGraph g') : dag2str g = dag2str g' := by
  rw [dagText_eq, dagText_eq, h]

end Props
end Verif
