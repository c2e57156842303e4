import Verif.IO.UaiLex
import Verif.Model.Fusion
import Verif.Model.Components

/-!
# What the reader gets from the numbers of a file

The content of a file is given here by functions of the index of a variable: cardinality, indices of the parents and
numbers of the table.
-/

set_option linter.unusedSectionVars false
set_option linter.unusedSimpArgs false

namespace Verif
namespace Uai

theorem natText_inj {i j : Nat} (h : natText i = natText j) : i = j := by
  have := congrArg (fun l => Nat.ofDigitChars 10 l 0) h
  simpa [natText, Nat.ofDigitChars_ten_toDigits] using this

theorem varName_inj {i j : Nat} (h : varName i = varName j) : i = j := natText_inj (List.cons.inj h).2

theorem pyInt_natText (n : Nat) : pyInt (natText n) = .ok (n : Int) := by
  have hd : ∀ c ∈ natText n, c.isDigit = true := fun _ h => Nat.isDigit_of_mem_toDigits (by decide) (by decide) h
  have hne : natText n ≠ [] := Nat.toDigits_ne_nil
  have hval : Nat.ofDigitChars 10 (natText n) 0 = n := Nat.ofDigitChars_ten_toDigits
  generalize natText n = t at hd hne hval
  obtain ⟨c, t, rfl⟩ := List.exists_cons_of_ne_nil hne
  have h1 : c ≠ '-' := by rintro rfl; exact absurd (hd _ List.mem_cons_self) (by decide)
  have h2 : c ≠ '+' := by rintro rfl; exact absurd (hd _ List.mem_cons_self) (by decide)
  rw [pyInt]
  · rw [if_pos ⟨hne, List.all_eq_true.2 hd⟩, hval]
    rfl
  · intro d h; exact h1 (List.cons.inj h).1
  · intro d h; exact h2 (List.cons.inj h).1

theorem nextInt_natText (n : Nat) (s : List Str) : nextInt (natText n :: s) = .ok ((n : Int), s) := by
  simp only [nextInt, next, py_ok_bind, pyInt_natText]
  rfl

theorem nextFloat_str {α : Type} {T : FloatText α} {x : α} (h : T.float (T.str x) = .ok x) (s : List Str) :
    nextFloat T (T.str x :: s) = .ok (x, s) := by
  simp only [nextFloat, next, py_ok_bind, h]
  rfl

theorem each_ok {X β : Type} {f : X → Rd β} {l : List X} {tok : X → List Str} {g : X → β}
    (h : ∀ x ∈ l, ∀ s, f x (tok x ++ s) = .ok (g x, s)) (s : List Str) :
    each f l (l.flatMap tok ++ s) = .ok (l.map g, s) := by
  induction l with
  | nil => rfl
  | cons x l ih =>
    rw [List.flatMap_cons, List.append_assoc, each, h x List.mem_cons_self]
    simp only [py_ok_bind]
    rw [ih fun y hy => h y (List.mem_cons_of_mem _ hy)]
    rfl

theorem each_map {X Y β : Type} (f : Y → Rd β) (k : X → Y) (l : List X) (s : List Str) :
    each f (l.map k) s = each (fun x => f (k x)) l s := by
  induction l generalizing s with
  | nil => rfl
  | cons x l ih =>
    rw [List.map_cons, each, each]
    congr 1
    funext p
    obtain ⟨y, s'⟩ := p
    show (each f (l.map k) s' >>= _) = (each (fun x => f (k x)) l s' >>= _)
    rw [ih]

/-- A loop that does the same for each token -/
theorem each_tokens {X β : Type} {f : Rd β} {toks : List Str} {l : List X} {ys : List β} (hl : l.length = toks.length)
    (h : List.Forall₂ (fun t y => ∀ s, f (t :: s) = .ok (y, s)) toks ys) (s : List Str) :
    each (fun _ => f) l (toks ++ s) = .ok (ys, s) := by
  induction h generalizing l with
  | nil => cases l with
    | nil => rfl
    | cons => simp at hl
  | cons h1 _ ih => cases l with
    | nil => simp at hl
    | cons x l =>
      rw [List.cons_append, each, h1]
      simp only [py_ok_bind]
      rw [ih (by simpa using hl)]
      rfl

theorem pyIndex_ok {X : Type} {l : List X} {i : Nat} {x : X} (h : l[i]? = some x) : pyIndex l (i : Int) = .ok x := by
  have : ¬ ((i : Int) < 0) := by omega
  simp only [pyIndex, this, if_false, Int.toNat_natCast, h]

/-- Arcs into variable `j` -/
def arcsOf (pa : Nat → List Nat) (j : Nat) : List (Str × Str) := (pa j).map fun i => (varName i, varName j)

theorem names_get {n i : Nat} (h : i < n) : ((List.range n).map varName)[i]? = some (varName i) := by
  rw [List.getElem?_map, List.getElem?_range h]; rfl

theorem readArcs_ok {n j : Nat} {pa : List Nat} (hp : ∀ i ∈ pa, i < n) (hj : j < n) (s : List Str) :
    readArcs ((List.range n).map varName) (varName j) (lineToks ((pa ++ [j]).map natText) ++ s) =
      .ok (pa.map fun i => (varName i, varName j), s) := by
  have e : lineToks ((pa ++ [j]).map natText) ++ s = natText (pa.length + 1) :: (pa.map natText ++ natText j :: s) := by
    simp [lineToks]
  rw [e, readArcs, nextInt_natText]
  simp only [py_ok_bind]
  have hk : (((pa.length + 1 : Nat) : Int) - 1).toNat = pa.length := by omega
  rw [hk, each_tokens (ys := pa.map varName) (by simp)]
  · simp only [py_ok_bind]
    rw [nextInt_natText]
    simp only [py_ok_bind]
    rw [pyIndex_ok (names_get hj)]
    simp only [py_ok_bind, ne_eq, not_true_eq_false, if_false, List.map_map]
    rfl
  · rw [List.forall₂_map_left_iff, List.forall₂_map_right_iff, List.forall₂_same]
    intro i hi s
    rw [nextInt_natText]
    simp only [py_ok_bind]
    rw [pyIndex_ok (names_get (hp i hi))]
    rfl

/-- The states of a variable with `c` states -/
def stateLabels {S : Type} (lab : Nat → S) (c : Nat) : List S := (List.range c).map lab

/-- The header of the file -/
def headerOf {S : Type} (lab : Nat → S) (n : Nat) (c : Nat → Nat) (pa : Nat → List Nat) : Header S :=
  ⟨(List.range n).map varName, (List.range n).map fun j => (varName j, stateLabels lab (c j)),
    .ofEdges ((List.range n).map (arcsOf pa)).flatten⟩

theorem readHeader_ok {S : Type} (lab : Nat → S) {n : Nat} (c : Nat → Nat) {pa : Nat → List Nat} (hp : ∀ j < n, ∀ i ∈ pa j, i < n)
    (s : List Str) :
    readHeader lab (natText n :: (((List.range n).map c).map natText ++ natText n ::
      (((List.range n).map fun j => pa j ++ [j]).flatMap (fun s => lineToks (s.map natText)) ++ s))) =
      .ok (headerOf lab n c pa, s) := by
  rw [readHeader, nextInt_natText]
  simp only [py_ok_bind, Int.toNat_natCast]
  rw [each_tokens (ys := ((List.range n).map c).map Int.ofNat) (by simp)]
  · simp only [py_ok_bind]
    rw [nextInt_natText]
    simp only [py_ok_bind, ne_eq, not_true_eq_false, if_false]
    have e : each (readArcs ((List.range n).map varName)) ((List.range n).map varName)
        (((List.range n).map fun j => pa j ++ [j]).flatMap (fun s => lineToks (s.map natText)) ++ s) =
        .ok ((List.range n).map (arcsOf pa), s) := by
      rw [each_map, List.flatMap_map]
      exact each_ok (fun j hj s => readArcs_ok (hp j (List.mem_range.1 hj)) (List.mem_range.1 hj) s) s
    rw [e]
    simp only [py_ok_bind, headerOf]
    have : ((List.range n).map varName).zip ((((List.range n).map c).map Int.ofNat).map fun c => (List.range c.toNat).map lab) =
        (List.range n).map fun j => (varName j, stateLabels lab (c j)) := by
      rw [List.map_map, List.map_map, List.zip_map', List.map_inj_left]
      intro j _
      rfl
    rw [this]
    rfl
  · rw [List.forall₂_map_left_iff, List.forall₂_map_right_iff, List.forall₂_same]
    intro k _ s
    exact nextInt_natText k s

theorem readTable_ok {α : Type} {T : FloatText α} {xs : List α} (h : ∀ x ∈ xs, T.float (T.str x) = .ok x) (s : List Str) :
    readTable T (lineToks (xs.map T.str) ++ s) = .ok (xs, s) := by
  rw [lineToks, List.cons_append, readTable, nextInt_natText]
  simp only [py_ok_bind, Int.toNat_natCast]
  refine each_tokens (by simp) ?_ s
  rw [List.forall₂_map_left_iff, List.forall₂_same]
  exact fun x hx s => nextFloat_str (h x hx) s

theorem readFactors_ok {S α F : Type} {T : FloatText α} {h : Header S} {n : Nat} (hn : h.names = (List.range n).map varName)
    {mk : Str → Dom Str S → List α → Py F} {xs : Nat → List α} {f : Nat → F} {d : Nat → Dom Str S}
    (hx : ∀ j < n, ∀ x ∈ xs j, T.float (T.str x) = .ok x)
    (hd : ∀ j < n, varParentsDomain h (varName j) = .ok (d j))
    (hf : ∀ j < n, mk (varName j) (d j) (xs j) = .ok (f j)) (s : List Str) :
    readFactors T h mk ((((List.range n).map xs).map fun l => l.map T.str).flatMap lineToks ++ s) =
      .ok ((List.range n).map fun j => (varName j, some (f j)), s) := by
  rw [readFactors, hn, each_map, List.flatMap_map, List.flatMap_map]
  refine each_ok (fun j hj s => ?_) s
  have hj := List.mem_range.1 hj
  rw [readTable_ok (hx j hj)]
  simp only [py_ok_bind]
  rw [hd j hj, py_ok_bind, hf j hj]
  rfl

/-! ### The graph -/

section Graph
variable {V : Type} [DecidableEq V]

theorem foldl_addEdge_edges {es : List (V × V)} {g : DiGraph V} (h : (g.edges ++ es).Nodup) :
    (es.foldl (fun g e => g.addEdge e.1 e.2) g).edges = g.edges ++ es := by
  induction es generalizing g with
  | nil => simp
  | cons e es ih =>
    have hn : e ∉ g.edges := fun hc => (List.disjoint_of_nodup_append h) hc List.mem_cons_self
    have h1 : ∀ (g : DiGraph V) v, (g.addNode v).edges = g.edges := by
      intro g v
      rw [DiGraph.addNode]
      split <;> rfl
    have he : (g.addEdge e.1 e.2).edges = g.edges ++ [e] := by
      rw [DiGraph.addEdge]
      simp only [h1]
      rw [if_neg hn]
    rw [List.foldl_cons, ih (by rw [he]; simpa using h), he]
    simp

theorem ofEdges_edges {es : List (V × V)} (h : es.Nodup) : (DiGraph.ofEdges es).edges = es := by
  have := foldl_addEdge_edges (g := (DiGraph.empty : DiGraph V)) (es := es) (by simpa [DiGraph.empty] using h)
  simpa [DiGraph.ofEdges, DiGraph.empty] using this

theorem ofEdges_wf (es : List (V × V)) : (DiGraph.ofEdges es).WF := (DiGraph.foldl_addEdge DiGraph.wf_empty).1

theorem ofEdges_nodes {es : List (V × V)} {w : V} : w ∈ (DiGraph.ofEdges es).nodes ↔ ∃ e ∈ es, w = e.1 ∨ w = e.2 := by
  rw [DiGraph.ofEdges, (DiGraph.foldl_addEdge DiGraph.wf_empty).2.1]
  simp [DiGraph.empty]

end Graph

/-- All arcs of the file -/
def arcs (n : Nat) (pa : Nat → List Nat) : List (Str × Str) := ((List.range n).map (arcsOf pa)).flatten

theorem mem_arcs {n : Nat} {pa : Nat → List Nat} {e : Str × Str} :
    e ∈ arcs n pa ↔ ∃ j < n, ∃ i ∈ pa j, e = (varName i, varName j) := by
  simp only [arcs, arcsOf, List.mem_flatten, List.mem_map, List.mem_range]
  constructor
  · rintro ⟨_, ⟨j, hj, rfl⟩, he⟩
    obtain ⟨i, hi, rfl⟩ := List.mem_map.1 he
    exact ⟨j, hj, i, hi, rfl⟩
  · rintro ⟨j, hj, i, hi, rfl⟩
    exact ⟨_, ⟨j, hj, rfl⟩, List.mem_map.2 ⟨i, hi, rfl⟩⟩

theorem arcs_nodup {n : Nat} {pa : Nat → List Nat} (h : ∀ j < n, (pa j).Nodup) : (arcs n pa).Nodup := by
  rw [arcs, List.nodup_flatten]
  constructor
  · intro l hl
    obtain ⟨j, hj, rfl⟩ := List.mem_map.1 hl
    exact (h j (List.mem_range.1 hj)).map fun a b hab => varName_inj (Prod.mk.inj hab).1
  · rw [List.pairwise_map]
    refine List.Pairwise.imp ?_ (List.nodup_range (n := n))
    intro i j hij e h1 h2
    obtain ⟨a, _, rfl⟩ := List.mem_map.1 h1
    obtain ⟨b, _, h2⟩ := List.mem_map.1 h2
    exact hij (varName_inj (Prod.mk.inj h2).2).symm

theorem pred_arcs {n : Nat} {pa : Nat → List Nat} (h : ∀ j < n, (pa j).Nodup) {j : Nat} (hj : j < n) :
    (DiGraph.ofEdges (arcs n pa)).pred (varName j) = (pa j).map varName := by
  rw [DiGraph.pred, ofEdges_edges (arcs_nodup h), arcs, List.filter_flatten, List.map_map]
  have : ∀ l : List Nat, l.Nodup → ((l.map ((List.filter fun e : Str × Str => e.2 = varName j) ∘ arcsOf pa)).flatten.map Prod.fst) =
      if j ∈ l then (pa j).map varName else [] := by
    intro l hl
    induction l with
    | nil => simp
    | cons k l ih =>
      obtain ⟨hk, hl⟩ := List.nodup_cons.1 hl
      rw [List.map_cons, List.flatten_cons, List.map_append, ih hl]
      by_cases hkj : k = j
      · subst hkj
        have : (arcsOf pa k).filter (fun e => e.2 = varName k) = arcsOf pa k := by
          rw [List.filter_eq_self]
          intro e he
          obtain ⟨i, _, rfl⟩ := List.mem_map.1 he
          simp
        rw [Function.comp, this, arcsOf]
        simp [hk, List.map_map, Function.comp_def]
      · have : (arcsOf pa k).filter (fun e => e.2 = varName j) = [] := by
          rw [List.filter_eq_nil_iff]
          intro e he
          obtain ⟨i, _, rfl⟩ := List.mem_map.1 he
          simpa using fun h => hkj (varName_inj h)
        simp [this, Ne.symm hkj]
  have h2 := this (List.range n) List.nodup_range
  rw [if_pos (List.mem_range.2 hj)] at h2
  exact h2

/-- Variables with a parent or a child are found in the graph. -/
theorem mem_nodes_arcs {n : Nat} {pa : Nat → List Nat} {w : Str} :
    w ∈ (DiGraph.ofEdges (arcs n pa)).nodes ↔ ∃ j < n, ∃ i ∈ pa j, w = varName i ∨ w = varName j := by
  rw [ofEdges_nodes]
  constructor
  · rintro ⟨e, he, hw⟩
    obtain ⟨j, hj, i, hi, rfl⟩ := mem_arcs.1 he
    exact ⟨j, hj, i, hi, hw⟩
  · rintro ⟨j, hj, i, hi, hw⟩
    exact ⟨_, mem_arcs.2 ⟨j, hj, i, hi, rfl⟩, hw⟩

/-- The domain of the factor of `j` -/
def domOf {S : Type} (lab : Nat → S) (c : Nat → Nat) (l : List Nat) : Dom Str S := l.map fun i => (varName i, stateLabels lab (c i))

theorem varParentsDomain_ok {S : Type} (lab : Nat → S) {n : Nat} (c : Nat → Nat) {pa : Nat → List Nat} (hp : ∀ j < n, ∀ i ∈ pa j, i < n)
    (hn : ∀ j < n, (pa j).Nodup) {j : Nat} (hj : j < n) (hjp : j ∉ pa j)
    (hc : (pa j ≠ []) ∨ ∃ k < n, j ∈ pa k) :
    varParentsDomain (headerOf lab n c pa) (varName j) = .ok (domOf lab c (pa j ++ [j])) := by
  have hnode : varName j ∈ (DiGraph.ofEdges (arcs n pa)).nodes := by
    rw [mem_nodes_arcs]
    rcases hc with h | ⟨k, hk, h⟩
    · obtain ⟨i, l, h⟩ := List.exists_cons_of_ne_nil h
      exact ⟨j, hj, i, by rw [h]; exact List.mem_cons_self, .inr rfl⟩
    · exact ⟨k, hk, j, h, .inl rfl⟩
  have hpd : (headerOf lab n c pa).graph.predecessors (varName j) = .ok ((pa j).map varName) := by
    show (DiGraph.ofEdges (arcs n pa)).predecessors (varName j) = _
    rw [DiGraph.predecessors, if_pos hnode, pred_arcs hn hj]
  have hnot : varName j ∉ (pa j).map varName := by
    intro h
    obtain ⟨i, hi, h⟩ := List.mem_map.1 h
    exact hjp (varName_inj h ▸ hi)
  rw [varParentsDomain, hpd, py_ok_bind, if_neg hnot]
  have e : (pa j).map varName ++ [varName j] = (pa j ++ [j]).map varName := by simp
  rw [e, subdomain, List.mapM_map, domOf]
  refine mapM_ok fun i hi => ?_
  have hi' : i < n := by
    rcases List.mem_append.1 hi with h | h
    · exact hp j hj i h
    · rw [List.mem_singleton.1 h]; exact hj
  have hget : Dict.get? (headerOf lab n c pa).dom (varName i) = some (stateLabels lab (c i)) := by
    show Dict.get? ((List.range n).map fun j => (varName j, stateLabels lab (c j))) (varName i) = _
    refine Dict.get?_of_mem ?_ (List.mem_map.2 ⟨i, List.mem_range.2 hi', rfl⟩)
    simp only [Dict.keys, List.map_map, Function.comp_def]
    exact List.nodup_range.map fun a b h => varName_inj h
  simp only [Function.comp, Dict.get, hget]
  rfl

end Uai
end Verif
