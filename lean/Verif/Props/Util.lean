import Verif.Util.Text
import Verif.Util.Misc
import Verif.Model.Fusion
import Mathlib.Data.Rat.Defs

/-!
# Properties of utilities (C22, C47, C70)
-/

set_option linter.unusedSectionVars false
set_option linter.unusedSimpArgs false

namespace Verif
namespace Props

/-! ### C22 -/

/-- The names can be used in the notation. -/
def NameOk (v : Str) : Prop := ∀ c ∈ ['[', ']', '|', ':'], c ∉ v

instance (v : Str) : Decidable (NameOk v) := inferInstanceAs (Decidable (∀ c ∈ _, c ∉ v))

/-- What is between the brackets. -/
def inside (g : DiGraph Str) (v : Str) : Str := v ++ (if (g.pred v).length > 0 then '|' :: pyJoin [':'] (g.pred v) else [])

theorem nodeText_eq (g : DiGraph Str) (v : Str) : nodeText v (g.pred v) = '[' :: inside g v ++ [']'] := rfl

theorem dag2str_eq (g : DiGraph Str) : dag2str g = .ok ((g.nodes.map fun v => '[' :: inside g v ++ [']']).flatten) := by
  rw [dag2str, mapM_ok (g := fun v => nodeText v (g.pred v)) fun v hv => by rw [DiGraph.predecessors, if_pos hv]; rfl]
  rfl

theorem partArcs_inside {g : DiGraph Str} (hg : g.WF) (hn : ∀ v ∈ g.nodes, NameOk v) {v : Str} (hv : v ∈ g.nodes) :
    partArcs (inside g v) = .ok ((g.pred v).map fun p => (p, v)) := by
  have hp : ∀ p ∈ g.pred v, NameOk p := fun p hp => hn p (hg.ends _ (DiGraph.mem_pred.1 hp)).1
  have hbar : '|' ∉ v := hn v hv '|' (by simp)
  rw [inside]
  by_cases h0 : (g.pred v).length > 0
  · have hne : g.pred v ≠ [] := List.length_pos_iff.1 h0
    rw [if_pos h0, partArcs, if_pos (by simp)]
    have hj : '|' ∉ pyJoin [':'] (g.pred v) := fun h => by
      rcases mem_pyJoin h with h | ⟨x, hx, h⟩
      · simp at h
      · exact hp x hx '|' (by simp) h
    have := split_join_char (c := '|') [v, pyJoin [':'] (g.pred v)] (by simp) (by simp [hbar, hj])
    rw [show pyJoin ['|'] [v, pyJoin [':'] (g.pred v)] = v ++ '|' :: pyJoin [':'] (g.pred v) by simp [pyJoin]] at this
    rw [this]
    simp only
    rw [split_join_char _ hne fun x hx => hp x hx ':' (by simp)]
  · have hnil : g.pred v = [] := List.length_eq_zero_iff.1 (Nat.eq_zero_of_not_pos h0)
    rw [if_neg h0, List.append_nil, partArcs, if_neg hbar, hnil]
    rfl

/-- **C22** (partial) reading back the string of a graph with at least two nodes gives the same edges, and the nodes that
are an end of some edge.

Full statement: the same nodes and edges.  It does not hold: isolated nodes are lost (`C22_isolated_lost`) and a graph of
one node fails (`C22_single_node`). -/
theorem C22_roundtrip_partial {g : DiGraph Str} (hg : g.WF) (hn : ∀ v ∈ g.nodes, NameOk v) (h2 : 2 ≤ g.nodes.length) :
    ∃ s g', dag2str g = .ok s ∧ str2dag s = .ok g' ∧ g'.WF ∧ (∀ e, e ∈ g'.edges ↔ e ∈ g.edges) ∧
      ∀ v, v ∈ g'.nodes ↔ ∃ e ∈ g.edges, v = e.1 ∨ v = e.2 := by
  have hne : g.nodes ≠ [] := by intro h; rw [h] at h2; simp at h2
  have hin : ∀ x ∈ g.nodes.map (inside g), ']' ∉ x := by
    intro x hx
    obtain ⟨v, hv, rfl⟩ := List.mem_map.1 hx
    rw [inside]
    intro h
    rcases List.mem_append.1 h with h | h
    · exact hn v hv ']' (by simp) h
    · split at h
      · rcases List.mem_cons.1 h with h | h
        · simp at h
        · rcases mem_pyJoin h with h | ⟨p, hp, h⟩
          · simp at h
          · exact hn p (hg.ends _ (DiGraph.mem_pred.1 hp)).1 ']' (by simp) h
      · cases h
  have hparts : pySplit [']', '['] ((((g.nodes.map fun v => '[' :: inside g v ++ [']']).flatten).drop 1).dropLast) = g.nodes.map (inside g) := by
    have := strip_brackets (g.nodes.map (inside g)) (by simpa using hne)
    rw [List.map_map] at this
    rw [show (fun v => '[' :: inside g v ++ [']']) = (fun x : Str => '[' :: x ++ [']']) ∘ inside g from rfl, this]
    exact split_join_two _ (by simpa using hne) hin
  have harcs : (g.nodes.map (inside g)).mapM partArcs = .ok (g.nodes.map fun v => (g.pred v).map fun p => (p, v)) := by
    rw [List.mapM_map]
    exact mapM_ok fun v hv => partArcs_inside hg hn hv
  obtain ⟨e1, e2, e3⟩ := DiGraph.foldl_addEdge (es := (g.nodes.map fun v => (g.pred v).map fun p => (p, v)).flatten)
    (g := (DiGraph.empty : DiGraph Str)) ⟨.nil, .nil, fun e he => by cases he⟩
  have hmem : ∀ e, e ∈ (g.nodes.map fun v => (g.pred v).map fun p => (p, v)).flatten ↔ e ∈ g.edges := by
    intro e
    rw [List.mem_flatten]
    constructor
    · rintro ⟨l, hl, he⟩
      obtain ⟨v, _, rfl⟩ := List.mem_map.1 hl
      obtain ⟨p, hp, rfl⟩ := List.mem_map.1 he
      exact DiGraph.mem_pred.1 hp
    · intro he
      exact ⟨_, List.mem_map_of_mem (hg.ends e he).2, List.mem_map.2 ⟨e.1, DiGraph.mem_pred.2 he, rfl⟩⟩
  refine ⟨_, _, dag2str_eq g, ?_, e1, fun e => ?_, fun v => ?_⟩
  · rw [str2dag, hparts]
    simp only [List.length_map, Nat.not_lt.2 h2, if_false, harcs, py_ok_bind]
    rfl
  · rw [e3, hmem]; simp [DiGraph.empty]
  · rw [e2]
    simp only [DiGraph.empty, List.not_mem_nil, false_or, hmem]

/-- A graph of one node: the string cannot be read. -/
theorem C22_single_node {v : Str} (hv : NameOk v) : ∃ s, dag2str ⟨[v], []⟩ = .ok s ∧ str2dag s = .error .indexError := by
  refine ⟨_, dag2str_eq _, ?_⟩
  have h : (([v].map fun v => '[' :: inside ⟨[v], []⟩ v ++ [']']).flatten.drop 1).dropLast = v := by
    simp [inside, DiGraph.pred]
  rw [str2dag]
  show (do
    if (pySplit [']', '['] (([v].map fun v => '[' :: inside ⟨[v], []⟩ v ++ [']']).flatten.drop 1).dropLast).length < 2 then throw .indexError
    let arcs ← (pySplit [']', '['] (([v].map fun v => '[' :: inside ⟨[v], []⟩ v ++ [']']).flatten.drop 1).dropLast).mapM partArcs
    return DiGraph.ofEdges arcs.flatten : Py (DiGraph Str)) = _
  have := splitGo_two_end (c := ']') (d := '[') v (hv ']' (by simp)) []
  rw [h, pySplit, this]
  rfl

/-- An isolated node is lost. -/
theorem C22_isolated_lost :
    (do let s ← dag2str ⟨[['A'], ['B'], ['C']], [(['A'], ['B'])]⟩
        let g ← str2dag s
        return (s, g)) = .ok ("[A][B|A][C]".toList, ⟨[['A'], ['B']], [(['A'], ['B'])]⟩) := by decide +kernel

/-- A graph with two parents, read back. -/
example : (do let s ← dag2str ⟨["A".toList, "B".toList, "C".toList], [("A".toList, "C".toList), ("B".toList, "C".toList)]⟩
              let g ← str2dag s
              return (s, g)) =
    .ok ("[A][B][C|A:B]".toList, ⟨["A".toList, "C".toList, "B".toList], [("A".toList, "C".toList), ("B".toList, "C".toList)]⟩) := by
  decide +kernel

/-! ### C70 -/

/-- **C70** the powerset has `2 ^ n` elements, which are the sub-sequences, all different when the elements are; the sizes
do not decrease. -/
theorem C70_powerset {X : Type} (l : List X) :
    (powerset l).length = 2 ^ l.length ∧ (∀ s, s ∈ powerset l ↔ s.Sublist l) ∧ (l.Nodup → (powerset l).Nodup) ∧
      (powerset l).Pairwise fun s t => s.length ≤ t.length := by
  have hp := powerset_perm l
  refine ⟨by rw [hp.length_eq, List.length_sublists'], fun s => by rw [hp.mem_iff, List.mem_sublists'],
    fun h => hp.nodup_iff.2 (List.nodup_sublists'.2 h), ?_⟩
  have hlen : ∀ r s, s ∈ combinations r l → s.length = r := fun r s hs =>
    List.length_of_sublistsLen ((combinations_perm r l).mem_iff.1 hs)
  rw [powerset, List.pairwise_flatMap]
  refine ⟨fun r _ => ?_, List.pairwise_iff_getElem.2 fun i j hi hj hij s hs t ht => ?_⟩
  · exact List.pairwise_iff_getElem.2 fun i j hi hj _ => by
      rw [hlen r _ (List.getElem_mem hi), hlen r _ (List.getElem_mem hj)]
  · rw [List.getElem_range] at hs ht
    rw [hlen _ _ hs, hlen _ _ ht]
    exact le_of_lt hij

example : powerset [1, 2, 3] = [[], [1], [2], [3], [1, 2], [1, 3], [2, 3], [1, 2, 3]] := by decide

/-! ### C47 -/

section tf
variable {K : Type} [DecidableEq K] [Zero K] [One K] [NeZero (1 : K)]
open PyVal

/-- The list of candidates (the variable `tf` of the code). -/
def candidates (lower : List Char → List Char) (var : List Char) (dom : List (PyVal K)) (t : PyType) : List (PyVal K) :=
  if t = .int ∨ t = .float then dom.filter eqTrue ++ dom.filter eqFalse
  else if t = .str then
    dom.filter (lowerIs lower (lower var ++ ['1'])) ++ dom.filter (lowerIs lower (lower var ++ ['0'])) ++
      dom.filter (lowerIs lower (lower var ++ ['2']))
  else []

theorem filter_disjoint {X : Type} {p q : X → Bool} (l : List X) (h : ∀ x ∈ l, ¬ (p x = true ∧ q x = true)) :
    (l.filter p ++ l.filter q).Perm (l.filter fun x => p x || q x) := by
  induction l with
  | nil => exact .nil
  | cons x l ih =>
    have ih := ih fun y hy => h y (List.mem_cons_of_mem _ hy)
    have hx := h x List.mem_cons_self
    by_cases hp : p x = true
    · have hq : q x = false := by simpa [hp] using hx
      simp only [List.filter_cons, hp, hq, Bool.true_or, if_true, Bool.false_eq_true, if_false, List.cons_append]
      exact ih.cons x
    · have hp : p x = false := by simpa using hp
      cases hq : q x with
      | true =>
        simp only [List.filter_cons, hp, hq, Bool.false_or, if_true, Bool.false_eq_true, if_false]
        exact (List.perm_middle).trans (ih.cons x)
      | false => simpa [List.filter_cons, hp, hq] using ih

/-- The candidates are some of the states, each once. -/
theorem candidates_perm (lower : List Char → List Char) (var : List Char) (dom : List (PyVal K)) (t : PyType) :
    ∃ p : PyVal K → Bool, (candidates lower var dom t).Perm (dom.filter p) := by
  rw [candidates]
  split
  · refine ⟨_, filter_disjoint _ ?_⟩
    rintro x _ ⟨h1, h2⟩
    cases x with
    | int n =>
      simp only [eqTrue, eqFalse, decide_eq_true_eq] at h1 h2
      rw [h1] at h2; cases h2
    | float y =>
      simp only [eqTrue, eqFalse, decide_eq_true_eq] at h1 h2
      rw [h1] at h2
      exact one_ne_zero (Fl.fin.inj h2)
    | _ => simp [eqTrue] at h1
  · split
    · have key : ∀ a b : Char, a ≠ b → ∀ x : PyVal K, ¬ (lowerIs lower (lower var ++ [a]) x = true ∧ lowerIs lower (lower var ++ [b]) x = true) := by
        rintro a b hab x ⟨h1, h2⟩
        cases x with
        | str s =>
          simp only [lowerIs, decide_eq_true_eq] at h1 h2
          rw [h1] at h2
          exact hab (by simpa using h2)
        | _ => simp [lowerIs] at h1
      refine ⟨fun x => (lowerIs lower (lower var ++ ['1']) x || lowerIs lower (lower var ++ ['0']) x) || lowerIs lower (lower var ++ ['2']) x,
        ((filter_disjoint dom fun x _ => key '1' '0' (by decide) x).append_right _).trans (filter_disjoint dom ?_)⟩
      rintro x _ ⟨h1, h2⟩
      simp only [Bool.or_eq_true] at h1
      rcases h1 with h1 | h1
      · exact key '1' '2' (by decide) x ⟨h1, h2⟩
      · exact key '0' '2' (by decide) x ⟨h1, h2⟩
    · exact ⟨fun _ => false, by simp⟩

/-- The function in terms of the candidates. -/
theorem identify_eq (lower : List Char → List Char) (var : List Char) (dom : List (PyVal K)) (h2 : dom.length ≤ 2)
    (ht : (dom.map type).dedup.length ≤ 1) {t : PyType} {ts : List PyType} (hd : dom.map type = t :: ts) :
    identifyTrueFalse lower var dom = match candidates lower var dom t with
      | [a, b] => .ok (a, b)
      | _ => .error .valueError := by
  rw [identifyTrueFalse, if_neg (Nat.not_lt.2 h2), if_neg (Nat.not_lt.2 ht)]
  simp only [hd]
  rfl

/-- **C47** the two states that are returned are the two states of the domain. -/
theorem C47_the_states (lower : List Char → List Char) (var : List Char) {dom : List (PyVal K)} {a b : PyVal K}
    (h : identifyTrueFalse lower var dom = .ok (a, b)) : dom.Perm [a, b] := by
  by_cases h2 : dom.length ≤ 2
  · by_cases ht : (dom.map type).dedup.length ≤ 1
    · cases hd : dom.map type with
      | nil =>
        rw [identifyTrueFalse, if_neg (Nat.not_lt.2 h2), if_neg (Nat.not_lt.2 ht)] at h
        simp only [hd] at h
        cases h
      | cons t ts =>
        rw [identify_eq lower var dom h2 ht hd] at h
        obtain ⟨p, hp⟩ := candidates_perm lower var dom t
        split at h
        · rename_i x y hc
          injection h with h
          injection h with e1 e2
          subst e1 e2
          rw [hc] at hp
          have hl : (dom.filter p).length = 2 := hp.length_eq.symm
          have : dom.filter p = dom := List.Sublist.eq_of_length_le List.filter_sublist (by rw [hl]; exact h2)
          rw [this] at hp
          exact hp.symm
        · cases h
    · rw [identifyTrueFalse, if_neg (Nat.not_lt.2 h2), if_pos (Nat.lt_of_not_le ht)] at h
      cases h
  · rw [identifyTrueFalse, if_pos (Nat.lt_of_not_le h2)] at h
    cases h

/-- **C47** domains with more than two states, or with states of different types, are refused. -/
theorem C47_refused (lower : List Char → List Char) (var : List Char) (dom : List (PyVal K))
    (h : dom.length ≠ 2 ∨ ∃ x ∈ dom, ∃ y ∈ dom, x.type ≠ y.type) : ∃ e, identifyTrueFalse lower var dom = .error e := by
  cases hr : identifyTrueFalse lower var dom with
  | error e => exact ⟨e, rfl⟩
  | ok r =>
    obtain ⟨a, b⟩ := r
    have hp := C47_the_states lower var hr
    rcases h with h | ⟨x, hx, y, hy, hne⟩
    · exact absurd hp.length_eq h
    · exfalso
      by_cases ht : (dom.map type).dedup.length ≤ 1
      · have hx' : x.type ∈ (dom.map type).dedup := List.mem_dedup.2 (List.mem_map_of_mem hx)
        have hy' : y.type ∈ (dom.map type).dedup := List.mem_dedup.2 (List.mem_map_of_mem hy)
        cases hd : (dom.map type).dedup with
        | nil => rw [hd] at hx'; cases hx'
        | cons t ts =>
          cases ts with
          | nil =>
            rw [hd, List.mem_singleton] at hx' hy'
            exact hne (hx'.trans hy'.symm)
          | cons _ _ => rw [hd] at ht; simp at ht
      · have h2 : dom.length ≤ 2 := le_of_eq hp.length_eq
        rw [identifyTrueFalse, if_neg (Nat.not_lt.2 h2), if_pos (Nat.lt_of_not_le ht)] at hr
        cases hr

theorem perm_eq_of_const {X : Type} {l l' : List X} (h : l.Perm l') (hc : ∀ x ∈ l, ∀ y ∈ l, x = y) : l = l' := by
  cases l with
  | nil => exact (List.nil_perm.1 h).symm
  | cons a l =>
    have h1 : a :: l = List.replicate (a :: l).length a := List.eq_replicate_iff.2 ⟨rfl, fun b hb => hc b hb a List.mem_cons_self⟩
    have h2 : l' = List.replicate l'.length a := List.eq_replicate_iff.2 ⟨rfl, fun b hb => hc b (h.mem_iff.2 hb) a List.mem_cons_self⟩
    rw [h1, h2, h.length_eq]


/-- **C47** (partial) the order in which the states are listed does not matter, if no two of them are strings that differ
only in case.

Full statement: without this condition.  It does not hold, see `C47_case`. -/
theorem C47_order_partial (lower : List Char → List Char) (var : List Char) {dom dom' : List (PyVal K)} (hp : dom.Perm dom')
    (hc : ∀ s t, PyVal.str s ∈ dom → PyVal.str t ∈ dom → lower s = lower t → s = t) :
    identifyTrueFalse lower var dom = identifyTrueFalse lower var dom' := by
  by_cases h2 : dom.length ≤ 2
  · have h2' : dom'.length ≤ 2 := hp.length_eq ▸ h2
    by_cases ht : (dom.map type).dedup.length ≤ 1
    · have hlen := ((hp.map type).dedup).length_eq
      have ht' : (dom'.map type).dedup.length ≤ 1 := hlen ▸ ht
      cases hd : dom.map type with
      | nil =>
        have : dom = [] := List.map_eq_nil_iff.1 hd
        subst this
        rw [List.nil_perm.1 hp]
      | cons t ts =>
        cases hd' : dom'.map type with
        | nil =>
          have : dom' = [] := List.map_eq_nil_iff.1 hd'
          subst this
          rw [List.perm_nil.1 hp]
        | cons t' ts' =>
          -- all states are of one type
          have hall : ∀ x ∈ dom, x.type = t := by
            intro x hx
            have hx' : x.type ∈ (dom.map type).dedup := List.mem_dedup.2 (List.mem_map_of_mem hx)
            have ht0 : t ∈ (dom.map type).dedup := List.mem_dedup.2 (by rw [hd]; exact List.mem_cons_self)
            cases hdd : (dom.map type).dedup with
            | nil => rw [hdd] at hx'; cases hx'
            | cons u us =>
              cases us with
              | nil => rw [hdd, List.mem_singleton] at hx' ht0; exact hx'.trans ht0.symm
              | cons _ _ => rw [hdd] at ht; simp at ht
          have htt : t' = t := by
            have : t' ∈ dom'.map type := by rw [hd']; exact List.mem_cons_self
            obtain ⟨x, hx, e⟩ := List.mem_map.1 this
            rw [← e]; exact hall x (hp.mem_iff.2 hx)
          subst htt
          have hcand : candidates lower var dom t' = candidates lower var dom' t' := by
            rw [candidates, candidates]
            by_cases hn : t' = .int ∨ t' = .float
            · rw [if_pos hn, if_pos hn]
              congr 1
              · refine perm_eq_of_const (hp.filter _) fun x hx y hy => ?_
                obtain ⟨hx1, hx2⟩ := List.mem_filter.1 hx
                obtain ⟨hy1, hy2⟩ := List.mem_filter.1 hy
                have := (hall x hx1).trans (hall y hy1).symm
                cases x <;> cases y <;> simp [type, eqTrue] at this hx2 hy2 ⊢ <;> rw [hx2, hy2]
              · refine perm_eq_of_const (hp.filter _) fun x hx y hy => ?_
                obtain ⟨hx1, hx2⟩ := List.mem_filter.1 hx
                obtain ⟨hy1, hy2⟩ := List.mem_filter.1 hy
                have := (hall x hx1).trans (hall y hy1).symm
                cases x <;> cases y <;> simp [type, eqFalse] at this hx2 hy2 ⊢ <;> rw [hx2, hy2]
            · rw [if_neg hn, if_neg hn]
              have key : ∀ s, dom.filter (lowerIs lower s) = dom'.filter (lowerIs lower s) := by
                intro s
                refine perm_eq_of_const (hp.filter _) fun x hx y hy => ?_
                obtain ⟨hx1, hx2⟩ := List.mem_filter.1 hx
                obtain ⟨hy1, hy2⟩ := List.mem_filter.1 hy
                cases x with
                | str a =>
                  cases y with
                  | str b =>
                    simp only [lowerIs, decide_eq_true_eq] at hx2 hy2
                    rw [hc a b hx1 hy1 (hx2.trans hy2.symm)]
                  | _ => simp [lowerIs] at hy2
                | _ => simp [lowerIs] at hx2
              rw [key, key, key]
          rw [identify_eq lower var dom h2 ht hd, identify_eq lower var dom' h2' ht' hd', hcand]
    · have ht' : ¬ (dom'.map type).dedup.length ≤ 1 := by rw [← ((hp.map type).dedup).length_eq]; exact ht
      rw [identifyTrueFalse, identifyTrueFalse, if_neg (Nat.not_lt.2 h2), if_neg (Nat.not_lt.2 h2'), if_pos (Nat.lt_of_not_le ht),
        if_pos (Nat.lt_of_not_le ht')]
      rfl
  · have h2' : ¬ dom'.length ≤ 2 := by rw [← hp.length_eq]; exact h2
    rw [identifyTrueFalse, identifyTrueFalse, if_pos (Nat.lt_of_not_le h2), if_pos (Nat.lt_of_not_le h2')]
    rfl

end tf

/-- Lower case of the letters used below. -/
def lowerEx (s : List Char) : List Char := s.map fun c => if c = 'X' then 'x' else c

/-- The order matters when the states differ only in case: with `X1`, `x1` the first one is taken as the true state. -/
theorem C47_case :
    identifyTrueFalse (K := ℚ) lowerEx "X".toList [.str "X1".toList, .str "x1".toList] = .ok (.str "X1".toList, .str "x1".toList) ∧
    identifyTrueFalse (K := ℚ) lowerEx "X".toList [.str "x1".toList, .str "X1".toList] = .ok (.str "x1".toList, .str "X1".toList) := by
  decide +kernel

/-- Usual domains; boolean states are refused. -/
theorem C47_examples :
    identifyTrueFalse (K := ℚ) lowerEx "X".toList [.str "x1".toList, .str "x2".toList] = .ok (.str "x1".toList, .str "x2".toList) ∧
    identifyTrueFalse (K := ℚ) lowerEx "X".toList [.str "x0".toList, .str "x1".toList] = .ok (.str "x1".toList, .str "x0".toList) ∧
    identifyTrueFalse (K := ℚ) lowerEx "X".toList [.int 0, .int 1] = .ok (.int 1, .int 0) ∧
    identifyTrueFalse (K := ℚ) lowerEx "X".toList [.float (.fin 0), .float (.fin 1)] = .ok (.float (.fin 1), .float (.fin 0)) ∧
    identifyTrueFalse (K := ℚ) lowerEx "X".toList [.bool false, .bool true] = .error .valueError := by
  decide +kernel

end Props
end Verif
