import Verif.Props.Networks
import Verif.Props.BuildNet
import Mathlib.MeasureTheory.Measure.Lebesgue.Basic

/-!
# C92: what the records of forward sampling are distributed like

`Verif/Props/Networks.lean` (C30) says that the records are possible ones. Here it is said which draws of the generator
give which records: for each node the draw picks the state in whose cell it falls, where the states of the node cut
`[0, 1)` into cells as long as their conditional probabilities. Hence, for draws that are uniform and independent,
the records are independent and each has the joint distribution of the network.
-/

set_option linter.unusedSectionVars false
set_option linter.unusedSimpArgs false

namespace Verif.Props
open Verif

section
variable {V S K : Type} [DecidableEq V] [DecidableEq S] [Inhabited S] [Field K] [LinearOrder K] [IsStrictOrderedRing K] {vt : VType}
  {F : Type} [VEFactor F (storeOf vt : StoreImpl V S (Fl K))]

/-- The data frame of `n` records with the columns `order`: record `i` has the states of `a i`. -/
def frame (order : List V) (n : Nat) (a : Nat → V → S) : List (Obs V S) :=
  (List.range n).map fun i => order.map fun v => (v, a i v)

/-- **C92** the records of forward sampling are `a 0`, …, `a (n - 1)` exactly when, for each record and each node, the
draw falls in the cell of the state: at least the conditional probabilities of the states before it, and less than
these plus its own. -/
theorem C92_cells {m : DagModel F V S} {B : BN V S K} (hr : Represents m B) (hB : B.Valid) (hn : B.Normalised)
    (hnn : B.NonNeg) {n : Nat} (hn1 : 1 ≤ n) (hne : B.nodes ≠ []) {u : V → Nat → K} (hu : ∀ v i, 0 ≤ u v i ∧ u v i < 1) {order : List V}
    (ho : TopoOrder m.graph order) {a : Nat → V → S} (ha : ∀ i < n, B.InStates (a i)) :
    forwardSampling m order n u = .ok (frame order n a) ↔ ∀ i < n, ∀ v ∈ B.nodes, B.Cell v (a i) (u v i) := by
  obtain ⟨data, h1, h2, h3, h4⟩ := forwardSampling_ok (storeOf_lawful vt) hr hB hn hnn hn1 hu ho order [] [] rfl
    (by simp [recsOf]) (fun _ => rfl) (by
      intro i hi
      simp only [recsOf, if_true, List.getElem_replicate]
      exact ⟨rfl, by simp, by simp⟩)
  have hone : order ≠ [] := fun e => by
    have := ho.perm
    rw [e, List.nil_perm, hr.nodes] at this
    exact hne this
  have hdata : recsOf n data = data := by rw [recsOf, if_neg fun e => hone (h3 e)]
  simp only [hdata] at h2 h4
  have hmem : ∀ v, v ∈ order ↔ v ∈ B.nodes := fun v => by rw [ho.perm.mem_iff, hr.nodes]
  have hnd : order.Nodup := ho.perm.nodup_iff.2 hr.wf.nodes
  have hpar : ∀ pre v post, order = pre ++ v :: post → ∀ p ∈ B.parents v, p ∈ pre := fun pre v post e p hp =>
    ho.sorted pre v post e p ((hr.parents v ((hmem v).1 (by rw [e]; simp)) p).1 hp)
  rw [show forwardSampling m order n u = .ok data from h1]
  constructor
  · intro e i hi v hv
    injection e with e
    have hid : i < data.length := by rw [h2]; exact hi
    have hk := h4 i hid
    have hrec : data[i] = order.map fun v => (v, a i v) := by
      simp only [e, frame, List.getElem_map, List.getElem_range]
    refine (hk.cell v ((hmem v).2 hv)).congr hB hv fun w hw => ?_
    have hwo : w ∈ order := (hmem w).2 (by
      rcases List.mem_cons.1 hw with rfl | hw
      · exact hv
      · exact hB.parents v hv w hw)
    have : Dict.get? data[i] w = some (a i w) := by
      rw [hrec]
      exact Dict.get?_of_mem (by simpa [Dict.keys, Function.comp_def] using hnd) (List.mem_map.2 ⟨w, hwo, rfl⟩)
    rw [asg, over_of_get? this]
  · intro hc
    congr 1
    refine List.ext_getElem (by simp [frame, h2]) fun i hi _ => ?_
    have hin : i < n := by rw [← h2]; exact hi
    have hk := h4 i hi
    have hst : B.InStates (asg data[i]) := by
      intro v hv
      obtain ⟨s, hs, hg⟩ := hk.states v ((hmem v).2 hv)
      rw [asg, over_of_get? hg]; exact hs
    have heq := cells_inj hB hnn (fun v hv => (hmem v).1 hv) hpar hst (ha i hin) hk.cell
      fun v hv => hc i hin v ((hmem v).1 hv)
    simp only [frame, List.getElem_map, List.getElem_range]
    refine record_eq hnd hk.keys fun v hv => ?_
    obtain ⟨s, hs, hg⟩ := hk.states v hv
    rw [hg, ← heq v hv, asg, over_of_get? hg]

/-- The cell of a state lies in `[0, 1)`. -/
theorem C92_cell_in {B : BN V S K} (hB : B.Valid) (hn : B.Normalised) (hnn : B.NonNeg) {v : V} (hv : v ∈ B.nodes) {a : V → S}
    (ha : B.InStates a) : 0 ≤ B.below v a ∧ B.below v a + B.table v a ≤ 1 := by
  have hin : ∀ s ∈ B.states v, 0 ≤ B.table v (upd a v s) := fun s hs => hnn v hv _ fun w hw => by
    by_cases hwv : w = v
    · subst hwv; rw [upd_same]; exact hs
    · rw [upd_ne _ _ hwv]; exact ha w hw
  refine ⟨List.sum_nonneg fun k hk => ?_, ?_⟩
  · obtain ⟨s, hs, rfl⟩ := List.mem_map.1 hk
    exact hin s ((List.takeWhile_prefix _).subset hs)
  · rw [← hn v hv a ha, BN.below]
    obtain ⟨i, hi, hia⟩ := List.mem_iff_getElem.1 (ha v hv)
    rw [← hia, takeWhile_ne_getElem (hB.nodupStates v hv) hi]
    have ht : B.table v a = B.table v (upd a v (B.states v)[i]) := by rw [hia, upd_self]
    rw [ht]
    conv_rhs => rw [← List.take_append_drop i (B.states v), List.drop_eq_getElem_cons hi, List.map_append, List.sum_append, List.map_cons,
      List.sum_cons, ← add_assoc]
    have : 0 ≤ (((B.states v).drop (i + 1)).map fun s => B.table v (upd a v s)).sum := List.sum_nonneg fun k hk => by
      obtain ⟨s, hs, rfl⟩ := List.mem_map.1 hk
      exact hin s (List.mem_of_mem_drop hs)
    linarith

end

section
open MeasureTheory
variable {V S : Type} [DecidableEq V] [DecidableEq S] [Inhabited S] {vt : VType}
  {F : Type} [VEFactor F (storeOf vt : StoreImpl V S (Fl ℝ))]

/-- The draws for `n` records, one number for each node and each record. -/
abbrev UnitDraws (B : BN V S ℝ) (n : Nat) : Type := {v // v ∈ B.nodes} × Fin n → ℝ

/-- The draws as the generator returns them; for anything that is not a node or not one of the records, whatever. -/
noncomputable def UnitDraws.at {B : BN V S ℝ} {n : Nat} (x : UnitDraws B n) (v : V) (i : Nat) : ℝ :=
  if h : v ∈ B.nodes ∧ i < n then x (⟨v, h.1⟩, ⟨i, h.2⟩) else 0

/-- The draws that give given records are a box. -/
theorem C92_box {m : DagModel F V S} {B : BN V S ℝ} (hr : Represents m B) (hB : B.Valid) (hn : B.Normalised)
    (hnn : B.NonNeg) {n : Nat} (hn1 : 1 ≤ n) (hne : B.nodes ≠ []) {order : List V} (ho : TopoOrder m.graph order)
    {a : Nat → V → S} (ha : ∀ i < n, B.InStates (a i)) :
    {x : UnitDraws B n | (∀ k, x k ∈ Set.Ico (0 : ℝ) 1) ∧ forwardSampling m order n x.at = .ok (frame order n a)} =
      Set.pi Set.univ fun k => Set.Ico (B.below k.1 (a k.2)) (B.below k.1 (a k.2) + B.table k.1 (a k.2)) := by
  ext x
  have hat : (∀ k, x k ∈ Set.Ico (0 : ℝ) 1) → ∀ v i, 0 ≤ x.at v i ∧ x.at v i < 1 := by
    intro h v i
    unfold UnitDraws.at
    split
    · exact h _
    · exact ⟨le_refl 0, one_pos⟩
  simp only [Set.mem_setOf_eq, Set.mem_pi, Set.mem_univ, true_implies]
  constructor
  · rintro ⟨h1, h2⟩ ⟨v, i⟩
    have := (C92_cells hr hB hn hnn hn1 hne (hat h1) ho ha).1 h2 i i.2 v v.2
    rw [UnitDraws.at, dif_pos ⟨v.2, i.2⟩] at this
    exact this
  · intro h
    have h1 : ∀ k, x k ∈ Set.Ico (0 : ℝ) 1 := by
      rintro ⟨v, i⟩
      obtain ⟨c1, c2⟩ := C92_cell_in hB hn hnn v.2 (ha i i.2)
      exact ⟨c1.trans (h (v, i)).1, (h (v, i)).2.trans_le c2⟩
    refine ⟨h1, (C92_cells hr hB hn hnn hn1 hne (hat h1) ho ha).2 fun i hi v hv => ?_⟩
    rw [UnitDraws.at, dif_pos ⟨hv, hi⟩]
    exact h (⟨v, hv⟩, ⟨i, hi⟩)

/-- **C92** for draws that are uniform on `[0, 1)` and independent, the probability that forward sampling returns given records is
the product of their joint probabilities: the records are independent, and each has the joint distribution of the
network. -/
theorem C92_distribution {m : DagModel F V S} {B : BN V S ℝ} (hr : Represents m B) (hB : B.Valid) (hn : B.Normalised)
    (hnn : B.NonNeg) {n : Nat} (hn1 : 1 ≤ n) (hne : B.nodes ≠ []) {order : List V} (ho : TopoOrder m.graph order)
    {a : Nat → V → S} (ha : ∀ i < n, B.InStates (a i)) :
    volume {x : UnitDraws B n | (∀ k, x k ∈ Set.Ico (0 : ℝ) 1) ∧ forwardSampling m order n x.at = .ok (frame order n a)} =
      ENNReal.ofReal ((List.range n).map fun i => B.joint (a i)).prod := by
  rw [C92_box hr hB hn hnn hn1 hne ho ha, Real.volume_pi_Ico]
  simp only [add_sub_cancel_left]
  rw [← ENNReal.ofReal_prod_of_nonneg fun k _ => hnn _ k.1.2 _ (ha k.2 k.2.2)]
  congr 1
  rw [Fintype.prod_prod_type_right, ← List.prod_ofFn]
  congr 1
  refine List.ext_getElem (by simp) fun i hi _ => ?_
  simp only [List.getElem_ofFn, List.getElem_map, List.getElem_range]
  rw [BN.joint, ← List.prod_toFinset _ hB.nodes, Finset.prod_subtype B.nodes.toFinset (p := fun v => v ∈ B.nodes) fun v => List.mem_toFinset]

/-- The case of one record. -/
theorem C92_record {m : DagModel F V S} {B : BN V S ℝ} (hr : Represents m B) (hB : B.Valid) (hn : B.Normalised)
    (hnn : B.NonNeg) (hne : B.nodes ≠ []) {order : List V} (ho : TopoOrder m.graph order) {a : V → S} (ha : B.InStates a) :
    volume {x : UnitDraws B 1 | (∀ k, x k ∈ Set.Ico (0 : ℝ) 1) ∧ forwardSampling m order 1 x.at = .ok [order.map fun v => (v, a v)]} =
      ENNReal.ofReal (B.joint a) := by
  have := C92_distribution hr hB hn hnn (le_refl 1) hne ho (a := fun _ => a) fun _ _ => ha
  simpa [frame, List.range_succ] using this

end

theorem pairNet_topo : TopoOrder ⟨[false, true], [(false, true)]⟩ [false, true] := by
  refine ⟨List.Perm.refl _, fun pre v post e p hp => ?_⟩
  simp only [List.mem_singleton, Prod.mk.injEq] at hp
  obtain ⟨rfl, rfl⟩ := hp
  match pre, e with
  | [], e => simp at e
  | [a], e => simp at e; simp [e]
  | a :: b :: l, e => simp at e

/-- A network of two nodes: the draws that give `true, true` have volume one sixth. -/
theorem C92_example (vt : VType) : ∃ m, buildNet vt (pairNet ℝ) (graphOf (pairNet ℝ)) (domOf (pairNet ℝ)) [false, true] true = .ok m ∧
    MeasureTheory.volume {x : UnitDraws (pairNet ℝ) 1 | (∀ k, x k ∈ Set.Ico (0 : ℝ) 1) ∧
      forwardSampling m [false, true] 1 x.at = .ok [[(false, true), (true, true)]]} = ENNReal.ofReal (1 / 6) := by
  obtain ⟨m, h1, h2, h3⟩ := C93_example vt ℝ
  refine ⟨m, h1, ?_⟩
  have := C92_record h3 (pairNet_valid ℝ) (pairNet_normalised ℝ) (pairNet_nonneg ℝ) (by simp [pairNet])
    (order := [false, true]) (by rw [h2]; exact pairNet_topo) (a := fun _ => true) (by intro v _; simp [pairNet])
  have e : (pairNet ℝ).joint (fun _ => true) = 1 / 6 := by
    simp [BN.joint, pairNet]; norm_num
  rw [e] at this
  exact this

end Verif.Props
