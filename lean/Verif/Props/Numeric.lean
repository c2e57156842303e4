import Verif.Util.Numeric
import Verif.Props.Factors3
import Verif.Factor.Basic
import Mathlib.Data.List.Dedup

/-!
# C110: spaces of positions; C111: which domains factors accept
-/

set_option linter.unusedSectionVars false
set_option linter.unusedSimpArgs false

namespace Verif.Props
open Verif

section
variable {V S : Type} [DecidableEq V] [DecidableEq S]

theorem cards_numeric (d : Dom V S) : cards (toNumericDomains d) = cards d := by simp [cards, toNumericDomains, Function.comp_def]

theorem numericStateSpace_eq (d : Dom V S) : numericStateSpace d = idxSpace (cards d) := by
  simp [numericStateSpace, stateSpace, toNumericDomains, idxSpace, cards, Function.comp_def]

/-- **C110** the positions of all variables, each below the number of its states, without repetition and in the order of the cells of a table. -/
theorem C110_positions (d : Dom V S) :
    (∀ c, c ∈ numericStateSpace d ↔ c.length = d.length ∧ ∀ (i : Nat) (v : V) (st : List S), d[i]? = some (v, st) → ∃ k, c[i]? = some k ∧ k < st.length) ∧
    (numericStateSpace d).Nodup ∧ (numericStateSpace d).length = ((d.map fun p => p.2.length).prod) ∧
    (numericStateSpace d).map (ravel (cards d)) = List.range (cards d).prod := by
  refine ⟨fun c => ?_, by rw [numericStateSpace_eq]; exact nodup_idxSpace _, by rw [numericStateSpace_eq, length_idxSpace]; rfl,
    by rw [numericStateSpace_eq]; exact map_ravel_idxSpace _⟩
  rw [numericStateSpace_eq, mem_idxSpace, ValidIdx, List.forall₂_iff_get]
  constructor
  · rintro ⟨h1, h2⟩
    have hl : c.length = d.length := by simpa [cards] using h1
    refine ⟨hl, fun i v st hi => ?_⟩
    obtain ⟨hid, he⟩ := List.getElem?_eq_some_iff.1 hi
    have hic : i < c.length := by omega
    refine ⟨c[i], List.getElem?_eq_getElem hic, ?_⟩
    have := h2 i hic (by simpa [cards] using hid)
    simpa [cards, he] using this
  · rintro ⟨h1, h2⟩
    refine ⟨by simpa [cards] using h1, fun i hi hi' => ?_⟩
    have hid : i < d.length := by omega
    obtain ⟨k, k1, k2⟩ := h2 i d[i].1 d[i].2 (List.getElem?_eq_getElem hid)
    rw [List.getElem?_eq_getElem hi] at k1
    injection k1 with k1
    simpa [cards, k1] using k2

/-- **C110** the state at position `n` of the state space consists of the labels at the positions that the numeric state space has at `n`, and the numeric assignments
are the numeric states with the names of the variables. -/
theorem C110_labels (d : Dom V S) (n : Nat) :
    (∀ c, (numericStateSpace d)[n]? = some c → ∃ s, (stateSpace d)[n]? = some s ∧ ∀ (i : Nat) (v : V) (st : List S) (k : Nat), d[i]? = some (v, st) → c[i]? = some k → s[i]? = st[k]?) ∧
    (numericAssignmentSpace d)[n]? = ((numericStateSpace d)[n]?).map fun c => (d.map Prod.fst).zip c := by
  constructor
  · intro c hc
    have hlab : stateSpace d = (numericStateSpace d).map fun c => (List.zipWith (fun k p => (p : V × List S).2[k]?) c d).filterMap id := by
      clear hc
      induction d with
      | nil => rfl
      | cons p d ih =>
        have e1 : stateSpace (p :: d) = p.2.flatMap fun x => (stateSpace d).map (x :: ·) := rfl
        have e2 : numericStateSpace (p :: d) = (List.range p.2.length).flatMap fun x => (numericStateSpace d).map (x :: ·) := rfl
        rw [e1, e2, List.map_flatMap, ih]
        have : ∀ l : List S, ∀ F : S → List (List S), l.flatMap F = (List.range l.length).flatMap fun k => (l[k]?.map F).getD [] := by
          intro l F
          induction l with
          | nil => rfl
          | cons x l ihl =>
            rw [List.flatMap_cons, ihl, List.length_cons, List.range_succ_eq_map, List.flatMap_cons, List.flatMap_map]
            rfl
        rw [this p.2]
        refine List.flatMap_congr fun k hk => ?_
        have hk' := List.mem_range.1 hk
        rw [List.getElem?_eq_getElem hk']
        simp only [Option.map_some, Option.getD_some, List.map_map]
        refine List.map_congr_left fun c _ => ?_
        simp [List.getElem?_eq_getElem hk']
    have hm := ((C110_positions d).1 c).1 (List.mem_of_getElem? hc)
    refine ⟨_, by rw [hlab, List.getElem?_map, hc]; rfl, ?_⟩
    clear hlab hc
    obtain ⟨h1, h2⟩ := hm
    induction d generalizing c with
    | nil => intro i v st k h; simp at h
    | cons p d ih =>
      cases c with
      | nil => simp at h1
      | cons x c =>
        obtain ⟨k0, k1, k2⟩ := h2 0 p.1 p.2 rfl
        injection k1 with k1
        subst k1
        simp only [List.zipWith_cons_cons, List.getElem?_eq_getElem k2, List.filterMap_cons, id]
        intro i v st k hi hk
        cases i with
        | zero =>
          injection hi with hi
          injection hk with hk
          subst hk
          subst hi
          simp only [List.getElem?_cons_zero]
          exact (List.getElem?_eq_getElem k2).symm
        | succ i =>
          exact ih c (by simpa using h1) (fun j v st hj => h2 (j + 1) v st hj) i v st k hi hk
  · rw [numericAssignmentSpace, assignmentSpace, List.getElem?_map, numericStateSpace]
    congr 2
    simp [toNumericDomains, Dict.keys, Function.comp_def]

/-- **C110** `steps_dict` gives for each variable the number of cells between neighbouring states: the cell of an assignment is the sum of these numbers times the
positions of its states. -/
theorem C110_steps {d : Dom V S} (hd : DomOk d) {a : V → S} (ha : ∀ p ∈ d, a p.1 ∈ p.2) {obs : Obs V S} (ho : ∀ p ∈ d, Dict.get? obs p.1 = some (a p.1)) :
    Dict.keys (stepsDict d) = Dict.keys d ∧
    indexList d obs = .ok [((d.map fun p => (Dict.get? (stepsDict d) p.1).getD 0 * p.2.idxOf (a p.1)).sum)] := by
  have hlen : (Dict.keys d).length = (steps (cards d)).length := by simp [Dict.keys, steps, cards]
  have hk : Dict.keys (stepsDict d) = Dict.keys d := by
    rw [stepsDict, Dict.keys, List.map_fst_zip hlen.le]
  refine ⟨hk, ?_⟩
  rw [indexList_full hd ha (fun v hv => by
    obtain ⟨st, hst⟩ := Dict.mem_keys.1 hv
    exact ho _ hst)]
  congr 2
  have key : ∀ (l : List (V × List S)) (s : List Nat) (pre : List (V × Nat)), l.length = s.length → (Dict.keys l).Nodup →
      (∀ v ∈ Dict.keys l, v ∉ Dict.keys pre) →
      dot s (coords l a) = (l.map fun p => (Dict.get? (pre ++ (Dict.keys l).zip s) p.1).getD 0 * p.2.idxOf (a p.1)).sum := by
    intro l
    induction l with
    | nil => intro s pre _ _ _; cases s <;> rfl
    | cons p l ih =>
      intro s pre hl hn hp
      cases s with
      | nil => simp at hl
      | cons x s =>
        rw [Dict.keys_cons, List.nodup_cons] at hn
        have hpre := hp p.1 (by rw [Dict.keys_cons]; exact List.mem_cons_self)
        have h1 := ih s (pre ++ [(p.1, x)]) (by simpa using hl) hn.2 (fun v hv => by
          rw [Dict.keys_append, List.mem_append]
          rintro (h | h)
          · exact hp v (by rw [Dict.keys_cons]; exact List.mem_cons_of_mem _ hv) h
          · simp only [Dict.keys, List.map_cons, List.map_nil, List.mem_singleton] at h
            exact hn.1 (h ▸ hv))
        have h2 : dot (x :: s) (coords (p :: l) a) = x * p.2.idxOf (a p.1) + dot s (coords l a) := by simp [dot, coords]
        rw [h2, h1, List.map_cons, List.sum_cons]
        congr 1
        · rw [Dict.get?_append, Dict.get?_eq_none.2 hpre, Dict.keys_cons, List.zip_cons_cons]
          simp [Dict.get?]
        · rw [Dict.keys_cons, List.zip_cons_cons, List.append_assoc]; rfl
  have := key d (steps (cards d)) [] (by simpa [Dict.keys] using hlen) hd.keys (by simp [Dict.keys])
  exact this

/-- **C110** (example) -/
theorem C110_example : numericStateSpace [('A', ['x', 'y']), ('B', ['p', 'q', 'r'])] = [[0, 0], [0, 1], [0, 2], [1, 0], [1, 1], [1, 2]] ∧
    stepsDict [('A', ['x', 'y']), ('B', ['p', 'q', 'r'])] = [('A', 3), ('B', 1)] ∧
    numericAssignmentSpace [('A', ['x', 'y']), ('B', ['p'])] = [[('A', 0), ('B', 0)], [('A', 1), ('B', 0)]] := by decide

end

/-! ### C111 -/

section
variable {K : Type}

/-- **C111** a domain is accepted exactly if its keys are strings that do not begin with an underscore and its values are lists of at least one state, all of one type. -/
theorem C111_accepted (d : PyDomain K) : checkPyDomain d = .ok () ↔
    ∀ p ∈ d, ∃ name l, p = (.str name, some l) ∧ name.head? ≠ some '_' ∧ l ≠ [] ∧ ∀ x ∈ l, ∀ y ∈ l, x.type = y.type := by
  have hone : ∀ l : List (PyVal K), oneType l = true ↔ l ≠ [] ∧ ∀ x ∈ l, ∀ y ∈ l, x.type = y.type := by
    intro l
    rw [oneType, beq_iff_eq, List.length_eq_one_iff]
    constructor
    · rintro ⟨t, ht⟩
      have hm : ∀ x ∈ l, x.type = t := fun x hx => by
        have : x.type ∈ (l.map PyVal.type).dedup := List.mem_dedup.2 (List.mem_map_of_mem hx)
        rw [ht] at this
        exact List.mem_singleton.1 this
      refine ⟨?_, fun x hx y hy => (hm x hx).trans (hm y hy).symm⟩
      rintro rfl
      simp at ht
    · rintro ⟨h1, h2⟩
      obtain ⟨x, hx⟩ := List.exists_mem_of_ne_nil _ h1
      refine ⟨x.type, ?_⟩
      have hm : ∀ t ∈ (l.map PyVal.type).dedup, t = x.type := fun t ht => by
        obtain ⟨y, hy, rfl⟩ := List.mem_map.1 (List.mem_dedup.1 ht)
        exact h2 y hy x hx
      have hx' : x.type ∈ (l.map PyVal.type).dedup := List.mem_dedup.2 (List.mem_map_of_mem hx)
      have hnd := List.nodup_dedup (l.map PyVal.type)
      generalize (l.map PyVal.type).dedup = L at hm hx' hnd
      match L, hm, hx', hnd with
      | [t], hm, _, _ => rw [hm t (by simp)]
      | t :: t' :: L, hm, _, hnd =>
        have := (hm t (by simp)).trans (hm t' (by simp)).symm
        simp [this] at hnd
  have hund : ∀ name, underscored (.str name : PyVal K) = true ↔ name.head? = some '_' := by
    intro name
    cases name with
    | nil => simp [underscored]
    | cons c name =>
      by_cases hc : c = '_'
      · subst hc; simp [underscored]
      · simp only [List.head?_cons, Option.some.injEq, hc, iff_false]
        unfold underscored
        split
        · rename_i h; injection h with h; injection h with h; exact absurd h hc
        · simp
  constructor
  · intro h p hp
    rw [checkPyDomain] at h
    split at h
    · cases h
    · rename_i h1
      split at h
      · cases h
      · rename_i h2
        simp only [not_or, not_not, List.all_eq_true] at h1
        obtain ⟨a1, a2, a3⟩ := h1
        obtain ⟨k, v⟩ := p
        have b1 := a1 _ hp
        have b2 := a2 _ hp
        have b3 := a3 _ hp
        cases v with
        | none => cases b2
        | some l =>
          cases k with
          | str name =>
            refine ⟨name, l, rfl, fun hn => h2 (List.any_eq_true.2 ⟨_, hp, (hund name).2 hn⟩), ?_⟩
            exact (hone l).1 b3
          | int n => cases b1
          | float x => cases b1
          | bool b => cases b1
          | other t i => cases b1
  · intro h
    rw [checkPyDomain, if_neg, if_neg]
    · rfl
    · simp only [List.any_eq_true, not_exists, not_and]
      intro p hp
      obtain ⟨name, l, rfl, h1, _⟩ := h p hp
      exact fun hu => h1 ((hund name).1 hu)
    · simp only [not_or, not_not, List.all_eq_true]
      refine ⟨fun p hp => ?_, fun p hp => ?_, fun p hp => ?_⟩
      · obtain ⟨name, l, rfl, _⟩ := h p hp; rfl
      · obtain ⟨name, l, rfl, _⟩ := h p hp; rfl
      · obtain ⟨name, l, rfl, _, h2⟩ := h p hp; exact (hone l).2 h2

/-- **C111** every other domain raises ValueError. -/
theorem C111_refused (d : PyDomain K) : checkPyDomain d = .ok () ∨ checkPyDomain d = .error .valueError := by
  rw [checkPyDomain]
  split
  · exact .inr rfl
  · split
    · exact .inr rfl
    · exact .inl rfl

/-- **C111** the domains of results: parts of an accepted domain, two accepted domains together and some of the states of each variable are accepted, so that the
check never refuses the result of an operation. -/
theorem C111_closed {d e : PyDomain K} (hd : checkPyDomain d = .ok ()) (he : checkPyDomain e = .ok ()) :
    (∀ q, checkPyDomain (d.filter q) = .ok ()) ∧ checkPyDomain (d ++ e) = .ok () ∧
    ∀ sel : PyVal K → List (PyVal K) → List (PyVal K), (∀ k l, sel k l ⊆ l) → (∀ p ∈ d, ∀ l, p.2 = some l → sel p.1 l ≠ []) →
      checkPyDomain (d.map fun p => (p.1, p.2.map (sel p.1))) = .ok () := by
  rw [C111_accepted] at hd he
  refine ⟨fun q => (C111_accepted _).2 fun p hp => hd p (List.mem_filter.1 hp).1, (C111_accepted _).2 fun p hp => ?_, fun sel h1 h2 => (C111_accepted _).2 fun p hp => ?_⟩
  · rcases List.mem_append.1 hp with hp | hp
    · exact hd p hp
    · exact he p hp
  · obtain ⟨q, hq, rfl⟩ := List.mem_map.1 hp
    obtain ⟨name, l, rfl, a1, a2, a3⟩ := hd q hq
    exact ⟨name, _, rfl, a1, h2 _ hq l rfl, fun x hx y hy => a3 x (h1 _ _ hx) y (h1 _ _ hy)⟩

/-- **C111** the names of the copies of a variable in counterfactual queries are accepted if its own name is and is not empty. -/
theorem C111_copies {name : List Char} (h : name.head? ≠ some '_') (h0 : name ≠ []) (i : Nat) : (pySfx name i).head? ≠ some '_' ∧ (pySfx [] i).head? = some '_' := by
  cases name with
  | nil => exact absurd rfl h0
  | cons c name => exact ⟨h, rfl⟩

/-- **C111** with names and types as required the check is the one of the model, in which names are abstract and the states of a variable have one type. -/
theorem C111_model {V S : Type} [DecidableEq V] [DecidableEq S] (name : V → List Char) (val : S → PyVal K) (hn : ∀ v, (name v).head? ≠ some '_')
    (d : Dom V S) (ht : ∀ p ∈ d, ∀ s ∈ p.2, ∀ t ∈ p.2, (val s).type = (val t).type) :
    checkPyDomain (d.map fun p => (.str (name p.1), some (p.2.map val))) = Factor.checkDomain d := by
  by_cases h : ∀ p ∈ d, p.2 ≠ []
  · rw [Factor.checkDomain, if_pos h, C111_accepted]
    intro q hq
    obtain ⟨p, hp, rfl⟩ := List.mem_map.1 hq
    refine ⟨_, _, rfl, hn _, by simpa using h p hp, fun x hx y hy => ?_⟩
    obtain ⟨s, hs, rfl⟩ := List.mem_map.1 hx
    obtain ⟨t, ht', rfl⟩ := List.mem_map.1 hy
    exact ht p hp s hs t ht'
  · rw [Factor.checkDomain, if_neg h]
    refine (C111_refused _).resolve_left fun hc => h fun p hp => ?_
    obtain ⟨name, l, he, _, h2, _⟩ := (C111_accepted _).1 hc _ (List.mem_map_of_mem hp)
    injection he with _ he
    injection he with he
    rw [← he] at h2
    simpa using h2

end

/-- **C111** (example) truth values and numbers, or numbers of two types, are not of one type; a name that is a number and a tuple of states are refused. -/
theorem C111_example :
    checkPyDomain (K := ℚ) [(.str ['X'], some [.int 0, .int 1]), (.str [], some [.bool true])] = .ok () ∧
    checkPyDomain (K := ℚ) [(.str ['X'], some [.int 0, .bool true])] = .error .valueError ∧
    checkPyDomain (K := ℚ) [(.str ['X'], some [.int 0, .float (.fin 1)])] = .error .valueError ∧
    checkPyDomain (K := ℚ) [(.str ['_', 'X'], some [.int 0, .int 1])] = .error .valueError ∧
    checkPyDomain (K := ℚ) [(.int 3, some [.int 0, .int 1])] = .error .valueError ∧
    checkPyDomain (K := ℚ) [(.str ['X'], none)] = .error .valueError ∧ checkPyDomain (K := ℚ) [(.str ['X'], some [])] = .error .valueError := by
  decide +kernel

end Verif.Props
