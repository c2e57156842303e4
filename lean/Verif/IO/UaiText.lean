import Verif.IO.UaiRead
import Verif.IO.UaiNet

/-!
# Reading a text that was written for a graph

The variables are given in the order of the file; `Q v` are the parents of `v` in the order in which they are written, `k v`
the number of states, `toks v` the numbers of the table as they stand in the text and `xs v` what they are read as.
-/

set_option linter.unusedSectionVars false
set_option linter.unusedSimpArgs false

namespace Verif
namespace Uai

theorem map_eq_range {X Y : Type} (l : List X) (F : X → Y) (y : Y) :
    l.map F = (List.range l.length).map fun j => ((l[j]?).map F).getD y := by
  refine List.ext_getElem (by simp) fun i h1 h2 => ?_
  simp only [List.length_map] at h1
  simp [List.getElem?_eq_getElem h1]

theorem readTable_toks {α : Type} {T : FloatText α} {toks : List Str} {xs : List α}
    (h : List.Forall₂ (fun t x => T.float t = .ok x) toks xs) (s : List Str) :
    readTable T (lineToks toks ++ s) = .ok (xs, s) := by
  rw [lineToks, List.cons_append, readTable, nextInt_natText]
  simp only [py_ok_bind, Int.toNat_natCast]
  refine each_tokens (by simp) (h.imp fun t x hx s => ?_) s
  simp only [nextFloat, next, py_ok_bind, hx]
  rfl

variable {V S α F : Type} [DecidableEq V]

theorem readFactors_toks {T : FloatText α} {h : Header S} {order : List V} {nm : V → Str} (hn : h.names = order.map nm)
    {mk : Str → Dom Str S → List α → Py F} {toks : V → List Str} {xs : V → List α} {f : V → F} {d : V → Dom Str S}
    (hx : ∀ v ∈ order, List.Forall₂ (fun t x => T.float t = .ok x) (toks v) (xs v))
    (hd : ∀ v ∈ order, varParentsDomain h (nm v) = .ok (d v))
    (hf : ∀ v ∈ order, mk (nm v) (d v) (xs v) = .ok (f v)) (s : List Str) :
    readFactors T h mk ((order.map toks).flatMap lineToks ++ s) = .ok (order.map fun v => (nm v, some (f v)), s) := by
  rw [readFactors, hn, each_map, List.flatMap_map]
  refine each_ok (fun v hv s => ?_) s
  rw [readTable_toks (hx v hv)]
  simp only [py_ok_bind]
  rw [hd v hv, py_ok_bind, hf v hv]
  rfl

/-- The text of a file for the given graph -/
def textOf (label : Str) (order : List V) (Q : V → List V) (k : V → Nat) (toks : V → List Str) : Str :=
  text label order.length (order.map k) order.length (order.map fun v => (Q v ++ [v]).map fun x => order.idxOf x) (order.map toks)

theorem checkLabel_textOf {label : Str} (h1 : ∀ c ∈ label, c ≠ '\n' ∧ c ≠ ' ') (order : List V) (Q : V → List V) (k : V → Nat)
    (toks : V → List Str) : checkLabel label (textOf label order Q k toks) = .ok () := by
  have e : (textOf label order Q k toks).takeWhile (· ≠ '\n') = label := by
    rw [textOf, text, (takeWhile_all (d := label) (p := (· ≠ '\n')) (fun c hc => by simpa using (h1 c hc).1) (by decide) _).1]
  have e2 : label.filter (· ≠ ' ') = label := List.filter_eq_self.2 fun c hc => by simpa using (h1 c hc).2
  rw [checkLabel, e, e2, isSub, if_pos (by simp)]

/-- The domain of the factor of `v` in the file -/
def fileDom (order : List V) (Q : V → List V) (k : V → Nat) (lab : Nat → S) (v : V) : Dom Str S :=
  (Q v ++ [v]).map fun w => (fileName order w, (List.range (k w)).map lab)

theorem read_text {T : FloatText α} {tk : Str → Option (Str × Str)} (hlex : Lexer tk) {label : Str}
    (hlab : ∀ c ∈ label, c.isDigit = false ∧ c ≠ '.' ∧ c ≠ '-' ∧ c ≠ '+') {order : List V} (hon : order.Nodup)
    {Q : V → List V} {k : V → Nat} {toks : V → List Str} {xs : V → List α} (lab : Nat → S)
    (hQo : ∀ v ∈ order, ∀ w ∈ Q v, w ∈ order) (hQn : ∀ v ∈ order, (v :: Q v).Nodup)
    (hconn : ∀ v ∈ order, Q v ≠ [] ∨ ∃ w ∈ order, v ∈ Q w)
    (hplain : ∀ v ∈ order, ∀ t ∈ toks v, Plain t)
    (hx : ∀ v ∈ order, List.Forall₂ (fun t x => T.float t = .ok x) (toks v) (xs v)) :
    ∃ (h : Header S) (s : List Str), readHeader lab (numbers tk (textOf label order Q k toks)) = .ok (h, s) ∧
      h.graph.WF ∧ h.graph.nodes.Perm (order.map (fileName order)) ∧
      (∀ v ∈ order, h.graph.pred (fileName order v) = (Q v).map (fileName order)) ∧
      ∀ {F : Type} (mk : Str → Dom Str S → List α → Py F) (f : V → F),
        (∀ v ∈ order, mk (fileName order v) (fileDom order Q k lab v) (xs v) = .ok (f v)) →
        readFactors T h mk s = .ok (order.map fun v => (fileName order v, some (f v)), []) := by
  set n := order.length with hn
  set c : Nat → Nat := fun j => ((order[j]?).map k).getD 0 with hc
  set pa : Nat → List Nat := fun j => ((order[j]?).map fun v => (Q v).map fun x => order.idxOf x).getD [] with hpa
  have hidx : ∀ j v, order[j]? = some v → order.idxOf v = j := by
    intro j v h
    obtain ⟨hj, rfl⟩ := List.getElem?_eq_some_iff.1 h
    exact hon.idxOf_getElem j hj
  have hget : ∀ j < n, ∃ v ∈ order, order[j]? = some v ∧ varName j = fileName order v := by
    intro j hj
    refine ⟨order[j], List.getElem_mem hj, List.getElem?_eq_getElem hj, ?_⟩
    rw [fileName, hidx j _ (List.getElem?_eq_getElem hj)]
  have hlt : ∀ v ∈ order, order.idxOf v < n ∧ order[order.idxOf v]? = some v := by
    intro v hv
    have := List.idxOf_lt_length_of_mem hv
    exact ⟨this, by rw [List.getElem?_eq_getElem this, List.getElem_idxOf]⟩
  have hpaj : ∀ j v, order[j]? = some v → pa j = (Q v).map fun x => order.idxOf x := by
    intro j v h; simp [hpa, h]
  have hcj : ∀ v ∈ order, c (order.idxOf v) = k v := by
    intro v hv; simp [hc, (hlt v hv).2]
  have hp1 : ∀ j < n, ∀ i ∈ pa j, i < n := by
    intro j hj i hi
    obtain ⟨v, hv, h1, _⟩ := hget j hj
    rw [hpaj j v h1] at hi
    obtain ⟨w, hw, rfl⟩ := List.mem_map.1 hi
    exact (hlt w (hQo v hv w hw)).1
  have hp2 : ∀ j < n, (pa j).Nodup := by
    intro j hj
    obtain ⟨v, hv, h1, _⟩ := hget j hj
    rw [hpaj j v h1]
    refine List.Nodup.map_on (fun a ha b _ h => ?_) (List.nodup_cons.1 (hQn v hv)).2
    exact (List.idxOf_inj (hQo v hv a ha)).1 h
  have hp3 : ∀ j < n, j ∉ pa j := by
    intro j hj hc
    obtain ⟨v, hv, h1, _⟩ := hget j hj
    rw [hpaj j v h1] at hc
    obtain ⟨w, hw, h2⟩ := List.mem_map.1 hc
    have : w = v := (List.idxOf_inj (hQo v hv w hw)).1 (h2.trans (hidx j v h1).symm)
    exact (List.nodup_cons.1 (hQn v hv)).1 (this ▸ hw)
  have hp4 : ∀ j < n, pa j ≠ [] ∨ ∃ k < n, j ∈ pa k := by
    intro j hj
    obtain ⟨v, hv, h1, _⟩ := hget j hj
    rcases hconn v hv with h | ⟨w, hw, h⟩
    · left
      rw [hpaj j v h1]
      simpa using h
    · right
      refine ⟨order.idxOf w, (hlt w hw).1, ?_⟩
      rw [hpaj _ w (hlt w hw).2]
      exact List.mem_map.2 ⟨v, h, hidx j v h1⟩
  have e1 : (order.map k) = (List.range n).map c := map_eq_range order _ 0
  have e2 : (order.map fun v => (Q v ++ [v]).map fun x => order.idxOf x) = (List.range n).map fun j => pa j ++ [j] := by
    rw [map_eq_range order _ []]
    refine List.map_congr_left fun j hj => ?_
    obtain ⟨v, hv, h1, _⟩ := hget j (List.mem_range.1 hj)
    simp [h1, hpaj j v h1, hidx j v h1]
  have e3 : (List.range n).map varName = order.map (fileName order) := by
    rw [map_eq_range order _ []]
    refine List.map_congr_left fun j hj => ?_
    obtain ⟨v, hv, h1, h2⟩ := hget j (List.mem_range.1 hj)
    simp [h1, h2]
  have hnum : numbers tk (textOf label order Q k toks) = natText n :: (((List.range n).map c).map natText ++ natText n ::
      (((List.range n).map fun j => pa j ++ [j]).flatMap (fun s => lineToks (s.map natText)) ++
        ((order.map toks).flatMap lineToks ++ []))) := by
    rw [textOf, numbers_text hlex hlab _ _ _ _ (by
      intro l hl t ht
      obtain ⟨v, hv, rfl⟩ := List.mem_map.1 hl
      exact hplain v hv t ht), e1, e2, List.append_nil]
  have hpred : ∀ v ∈ order, (headerOf lab n c pa).graph.pred (fileName order v) = (Q v).map (fileName order) := by
    intro v hv
    have := pred_arcs hp2 (hlt v hv).1
    rw [hpaj _ v (hlt v hv).2, List.map_map] at this
    exact this
  refine ⟨headerOf lab n c pa, _, by rw [hnum, readHeader_ok lab c hp1], ofEdges_wf _, ?_, hpred, ?_⟩
  · refine (List.perm_ext_iff_of_nodup (ofEdges_wf _).nodes
      (List.Nodup.map_on (fun u hu v _ h => fileName_inj hu h) hon)).2 fun w => ?_
    show w ∈ (DiGraph.ofEdges (arcs n pa)).nodes ↔ _
    rw [mem_nodes_arcs, List.mem_map]
    constructor
    · rintro ⟨j, hj, i, hi, rfl | rfl⟩
      · obtain ⟨v, hv, _, h2⟩ := hget i (hp1 j hj i hi)
        exact ⟨v, hv, h2.symm⟩
      · obtain ⟨v, hv, _, h2⟩ := hget j hj
        exact ⟨v, hv, h2.symm⟩
    · rintro ⟨v, hv, rfl⟩
      obtain ⟨h1, h2⟩ := hlt v hv
      rcases hp4 _ h1 with h | ⟨k, hk, h⟩
      · obtain ⟨i, l, h⟩ := List.exists_cons_of_ne_nil h
        exact ⟨_, h1, i, by rw [h]; exact List.mem_cons_self, .inr rfl⟩
      · exact ⟨k, hk, _, h, .inl rfl⟩
  · intro F mk f hf
    refine readFactors_toks (d := fileDom order Q k lab) e3 hx (fun v hv => ?_) hf []
    have := varParentsDomain_ok lab c hp1 hp2 (hlt v hv).1 (hp3 _ (hlt v hv).1) (hp4 _ (hlt v hv).1)
    refine this.trans ?_
    rw [domOf, fileDom]
    have e4 : pa (order.idxOf v) ++ [order.idxOf v] = (Q v ++ [v]).map fun x => order.idxOf x := by
      simp [hpaj _ v (hlt v hv).2]
    rw [e4, List.map_map]
    congr 1
    refine List.map_congr_left fun w hw => ?_
    have hw' : w ∈ order := by
      rcases List.mem_append.1 hw with h | h
      · exact hQo v hv w h
      · rw [List.mem_singleton.1 h]; exact hv
    simp only [Function.comp, stateLabels, hcj w hw']
    rfl

end Uai
end Verif
