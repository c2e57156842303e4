import Verif.Net.Chebyshev
import Verif.Props.SampleCols
import Verif.Props.Data
import Verif.Spec.Learning
import Mathlib.MeasureTheory.Integral.Bochner.Set

/-!
# C98: inference from sampled records agrees with the model

`datainference.py:58-79` samples a model and asks `LaplaceInference` for probabilities.
-/

set_option linter.unusedSectionVars false
set_option linter.unusedSimpArgs false

namespace Verif.Props
open Verif

section
variable {V S : Type} [DecidableEq V] [DecidableEq S]

/-- The data frame of sampled records, `pgmodel.py:192-197` with `as_pandas=True`: no value is missing. -/
def framed (cols : List V) (data : List (Obs V S)) : Frame V S := ⟨cols, data.map fun r => r.map fun p => (p.1, some p.2)⟩

theorem mem_framed_row {cols : List V} {b : V → S} {v : V} {s : S} :
    (v, some s) ∈ ((cols.map fun w => (w, b w)).map fun p => (p.1, some p.2) : Rec V S) ↔ v ∈ cols ∧ b v = s := by
  simp only [List.map_map, List.mem_map, Function.comp_apply, Prod.mk.injEq, Option.some.injEq]
  constructor
  · rintro ⟨w, hw, rfl, rfl⟩; exact ⟨hw, rfl⟩
  · rintro ⟨h, rfl⟩; exact ⟨v, h, rfl, rfl⟩

theorem numRows_framed (cols : List V) (n : Nat) (b : Nat → V → S) (P : Rec V S → Prop) [DecidablePred P] (A : (V → S) → Prop)
    [DecidablePred A] (h : ∀ i < n, P ((cols.map fun w => (w, b i w)).map fun p => (p.1, some p.2)) ↔ A (b i)) :
    numRows (framed cols (frame cols n b)) P = hits A fun i : Fin n => b i := by
  have e1 : hits A (fun i : Fin n => b i) = ((Finset.range n).filter fun i => A (b i)).card := by
    rw [hits, Finset.card_filter, Finset.card_filter, ← Fin.sum_univ_eq_sum_range (fun i => if A (b i) then 1 else 0)]
  rw [e1, numRows, framed, frame, List.map_map, List.filter_map, List.length_map]
  have e2 : (List.range n).filter ((fun r => decide (P r)) ∘ ((fun r => r.map fun p => (p.1, some p.2)) ∘ fun i => cols.map fun v => (v, b i v))) =
      (List.range n).filter fun i => decide (A (b i)) := by
    refine List.filter_congr fun i hi => ?_
    simp only [Function.comp_apply]
    exact decide_eq_decide.2 (h i (List.mem_range.1 hi))
  rw [e2]
  rfl

end

section
open MeasureTheory
variable {V S : Type} [DecidableEq V] [DecidableEq S] [Inhabited S] {vt : VType}
  {F : Type} [VEFactor F (storeOf vt : StoreImpl V S (Fl ℝ))]

/-- The states of the nodes, in all possible ways. -/
noncomputable def allRecs (B : BN V S ℝ) : Finset (V → S) := by
  classical exact (exts B.states B.nodes fun _ => default).toFinset

theorem mem_allRecs {B : BN V S ℝ} (hB : B.Valid) {r : V → S} :
    r ∈ allRecs B ↔ (∀ v, v ∉ B.nodes → r v = default) ∧ B.InStates r := by
  classical
  rw [allRecs, List.mem_toFinset, mem_exts hB.nodes]
  rfl

/-- Probability of an event that looks at the variables `vs` only. -/
theorem sum_allRecs {B : BN V S ℝ} (hB : B.Valid) {vs : List V} (hvs : ∀ v ∈ vs, v ∈ B.nodes) {a : V → S} (ha : ∀ v ∈ vs, a v ∈ B.states v) :
    ∑ r ∈ (allRecs B).filter (fun r => ∀ v ∈ vs, r v = a v), B.joint r = B.marg vs a := by
  classical
  rw [Finset.sum_filter, allRecs, List.sum_toFinset _ (nodup_exts hB.nodes hB.nodupStates _), ← sumOver_exts]
  have h := sumOver_fixed (D := B.states) hB.nodes hB.nodupStates (vs := vs) (a := a) (fun v _ hv => ha v hv) B.joint fun _ => default
  have e : (fun r => if ∀ v ∈ vs, r v = a v then B.joint r else 0) = fun u => if ∀ v ∈ B.nodes, v ∈ vs → u v = a v then B.joint u else 0 := by
    funext r
    refine if_congr ⟨fun h v _ hv => h v hv, fun h v hv => h v (hvs v hv) hv⟩ rfl rfl
  rw [e, h, BN.marg]
  refine hB.joint_dep.sumOver _ _ _ fun v hv => ?_
  simp only [List.mem_filter, decide_eq_true_eq, not_and, not_not] at hv
  exact if_pos ⟨hv.1, hv.2 hv.1⟩

theorem sum_joint {B : BN V S ℝ} (hB : B.Valid) (hn : B.Normalised) : ∑ r ∈ allRecs B, B.joint r = 1 := by
  have h := sum_allRecs hB (vs := []) (a := fun _ => default) (by simp) (by simp)
  rw [Finset.filter_true_of_mem (by simp)] at h
  rw [h, ← C29_total hB hn fun _ => default]
  simp [BN.marg]

theorem joint_nonneg_rec {B : BN V S ℝ} (hB : B.Valid) (hnn : B.NonNeg) {r : V → S} (hr : r ∈ allRecs B) : 0 ≤ B.joint r :=
  List.prod_nonneg fun k hk => by
    obtain ⟨v, hv, rfl⟩ := List.mem_map.1 hk
    exact hnn v hv r ((mem_allRecs hB).1 hr).2

/-- A sequence of records, with something after the end. -/
def padded {n : Nat} (t : Fin n → V → S) (i : Nat) : V → S := if h : i < n then t ⟨i, h⟩ else fun _ => default

theorem padded_lt {n : Nat} (t : Fin n → V → S) (i : Fin n) : padded t i = t i := dif_pos i.2

/-- The draws that give the records `t`. -/
def drawsOf (m : DagModel F V S) (B : BN V S ℝ) (order : List V) {n : Nat} (t : Fin n → V → S) : Set (UnitDraws B n) :=
  {x | (∀ k, x k ∈ Set.Ico (0 : ℝ) 1) ∧ forwardSampling m order n x.at = .ok (frame order n (padded t))}

theorem tuples_inStates {B : BN V S ℝ} (hB : B.Valid) {n : Nat} {t : Fin n → V → S} (ht : t ∈ tuples (allRecs B) n) :
    ∀ i < n, B.InStates (padded t i) := fun i hi => by
  rw [show padded t i = t ⟨i, hi⟩ from dif_pos hi]
  exact ((mem_allRecs hB).1 (Fintype.mem_piFinset.1 ht _)).2

section
variable {m : DagModel F V S} {B : BN V S ℝ} (hr : Represents m B) (hB : B.Valid) (hn : B.Normalised)
    (hnn : B.NonNeg) {n : Nat} (hn1 : 1 ≤ n) (hne : B.nodes ≠ []) {order : List V} (ho : TopoOrder m.graph order)

include hr hB hn hnn hn1 hne ho

theorem volume_drawsOf {t : Fin n → V → S} (ht : t ∈ tuples (allRecs B) n) :
    volume (drawsOf m B order t) = ENNReal.ofReal (∏ k, B.joint (t k)) := by
  rw [drawsOf, C92_distribution hr hB hn hnn hn1 hne ho (tuples_inStates hB ht)]
  congr 1
  rw [← List.prod_ofFn]
  congr 1
  refine List.ext_getElem (by simp) fun i hi _ => ?_
  simp only [List.getElem_ofFn, List.getElem_map, List.getElem_range]
  rw [show padded t i = t ⟨i, by simpa using hi⟩ from dif_pos _]

theorem exists_drawsOf {x : UnitDraws B n} (hx : ∀ k, x k ∈ Set.Ico (0 : ℝ) 1) :
    ∃ t ∈ tuples (allRecs B) n, x ∈ drawsOf m B order t := by
  have hat : ∀ v i, 0 ≤ x.at v i ∧ x.at v i < 1 := by
    intro v i
    unfold UnitDraws.at
    split
    · exact hx _
    · exact ⟨le_refl 0, one_pos⟩
  obtain ⟨b, b1, b2⟩ := sampled_frame hr hB hn hnn hn1 hne hat ho
  refine ⟨fun i v => if v ∈ B.nodes then b i v else default, Fintype.mem_piFinset.2 fun i => (mem_allRecs hB).2
    ⟨fun v hv => if_neg hv, fun v hv => ?_⟩, hx, ?_⟩
  · show (if v ∈ B.nodes then b i v else default) ∈ _
    rw [if_pos hv]; exact b1 i i.2 v hv
  · rw [b2]
    congr 1
    rw [frame_inj]
    intro i hi v hv
    rw [show padded (fun (i : Fin n) v => if v ∈ B.nodes then b i v else default) i = fun v => if v ∈ B.nodes then b i v else default from dif_pos hi]
    exact (if_pos (by rw [← hr.nodes]; exact ho.perm.mem_iff.1 hv)).symm

theorem measurable_drawsOf {t : Fin n → V → S} (ht : t ∈ tuples (allRecs B) n) : MeasurableSet (drawsOf m B order t) := by
  rw [drawsOf, C92_box hr hB hn hnn hn1 hne ho (tuples_inStates hB ht)]
  exact MeasurableSet.univ_pi fun _ => measurableSet_Ico

omit hn hnn hn1 hne in
theorem disjoint_drawsOf {t t' : Fin n → V → S} (ht : t ∈ tuples (allRecs B) n) (ht' : t' ∈ tuples (allRecs B) n) (hne' : t ≠ t') :
    Disjoint (drawsOf m B order t) (drawsOf m B order t') := by
  have hmem : ∀ v, v ∈ order ↔ v ∈ B.nodes := fun v => by rw [ho.perm.mem_iff, hr.nodes]
  refine Set.disjoint_left.2 fun x hx hx' => hne' ?_
  have he := hx.2.symm.trans hx'.2
  injection he with he
  rw [frame_inj] at he
  funext i v
  by_cases hv : v ∈ B.nodes
  · have := he i i.2 v ((hmem v).2 hv)
    rwa [padded_lt, padded_lt] at this
  · rw [((mem_allRecs hB).1 (Fintype.mem_piFinset.1 ht i)).1 v hv, ((mem_allRecs hB).1 (Fintype.mem_piFinset.1 ht' i)).1 v hv]

/-- The probability of what happens for some sequences of records. -/
theorem volume_eq (Q : (Fin n → V → S) → Prop) [DecidablePred Q] (G : UnitDraws B n → Prop)
    (hG : ∀ t ∈ tuples (allRecs B) n, ∀ x ∈ drawsOf m B order t, G x ↔ Q t) :
    volume {x : UnitDraws B n | (∀ k, x k ∈ Set.Ico (0 : ℝ) 1) ∧ G x} =
      ENNReal.ofReal (∑ t ∈ (tuples (allRecs B) n).filter Q, ∏ k, B.joint (t k)) := by
  have hU : {x : UnitDraws B n | (∀ k, x k ∈ Set.Ico (0 : ℝ) 1) ∧ G x} = ⋃ t ∈ (tuples (allRecs B) n).filter Q, drawsOf m B order t := by
    ext x
    simp only [Set.mem_setOf_eq, Set.mem_iUnion]
    constructor
    · rintro ⟨hx, hg⟩
      obtain ⟨t, ht, hxt⟩ := exists_drawsOf hr hB hn hnn hn1 hne ho hx
      exact ⟨t, Finset.mem_filter.2 ⟨ht, (hG t ht x hxt).1 hg⟩, hxt⟩
    · rintro ⟨t, ht, hxt⟩
      obtain ⟨h1, h2⟩ := Finset.mem_filter.1 ht
      exact ⟨hxt.1, (hG t h1 x hxt).2 h2⟩
  rw [hU, measure_biUnion_finset]
  · have hw : ∀ t ∈ (tuples (allRecs B) n).filter Q, 0 ≤ ∏ k, B.joint (t k) := fun t ht => Finset.prod_nonneg fun k _ =>
      joint_nonneg_rec hB hnn (Fintype.mem_piFinset.1 (Finset.mem_filter.1 ht).1 k)
    rw [ENNReal.ofReal_sum_of_nonneg hw]
    exact Finset.sum_congr rfl fun t ht => volume_drawsOf hr hB hn hnn hn1 hne ho (Finset.mem_filter.1 ht).1
  · intro t ht t' ht' hne'
    exact disjoint_drawsOf hr hB ho (Finset.mem_filter.1 ht).1 (Finset.mem_filter.1 ht').1 hne'
  · exact fun t ht => measurable_drawsOf hr hB hn hnn hn1 hne ho (Finset.mem_filter.1 ht).1

/-- The probability of what can only happen for some sequences of records. -/
theorem volume_le (Q : (Fin n → V → S) → Prop) [DecidablePred Q] (G : UnitDraws B n → Prop)
    (hG : ∀ t ∈ tuples (allRecs B) n, ¬ Q t → ∀ x ∈ drawsOf m B order t, G x) :
    volume {x : UnitDraws B n | (∀ k, x k ∈ Set.Ico (0 : ℝ) 1) ∧ ¬ G x} ≤
      ENNReal.ofReal (∑ t ∈ (tuples (allRecs B) n).filter Q, ∏ k, B.joint (t k)) := by
  refine (measure_mono (t := ⋃ t ∈ (tuples (allRecs B) n).filter Q, drawsOf m B order t) ?_).trans
    ((measure_biUnion_finset_le _ _).trans (le_of_eq ?_))
  · rintro x ⟨h1, h2⟩
    obtain ⟨t, ht, hxt⟩ := exists_drawsOf hr hB hn hnn hn1 hne ho h1
    simp only [Set.mem_iUnion]
    refine ⟨t, Finset.mem_filter.2 ⟨ht, ?_⟩, hxt⟩
    by_contra hq
    exact h2 (hG t ht hq x hxt)
  · have hw : ∀ t ∈ (tuples (allRecs B) n).filter Q, 0 ≤ ∏ k, B.joint (t k) := fun t ht => Finset.prod_nonneg fun k _ =>
      joint_nonneg_rec hB hnn (Fintype.mem_piFinset.1 (Finset.mem_filter.1 ht).1 k)
    rw [ENNReal.ofReal_sum_of_nonneg hw]
    exact Finset.sum_congr rfl fun t ht => volume_drawsOf hr hB hn hnn hn1 hne ho (Finset.mem_filter.1 ht).1

end

/-- A question about sampled records: target variables and evidence are distinct nodes, the domains have the states of the target
variables, and the states asked for exist. -/
structure AskOk (B : BN V S ℝ) (dom : Dom V S) (T : List V) (ev : Obs V S) (a : V → S) : Prop where
  domOk : DomOk dom
  nonempty : T ≠ []
  nodup : T.Nodup
  tdom : ∀ t ∈ T, t ∈ Dict.keys dom
  tnodes : ∀ t ∈ T, t ∈ B.nodes
  states : ∀ p ∈ dom, p.1 ∈ T → ∀ s ∈ B.states p.1, s ∈ p.2
  evNodup : (Dict.keys ev).Nodup
  evStates : ∀ p ∈ ev, p.1 ∈ B.nodes ∧ p.2 ∈ B.states p.1
  disj : ∀ t ∈ T, t ∉ Dict.keys ev
  asked : ∀ t ∈ T, a t ∈ B.states t

theorem AskOk.over_ev {B : BN V S ℝ} {dom : Dom V S} {T : List V} {ev : Obs V S} {a : V → S} (h : AskOk B dom T ev a) {p : V × S} (hp : p ∈ ev) :
    over ev a p.1 = p.2 := over_of_get? (Dict.get?_of_mem h.evNodup hp)

theorem AskOk.over_T {B : BN V S ℝ} {dom : Dom V S} {T : List V} {ev : Obs V S} {a : V → S} (h : AskOk B dom T ev a) {t : V} (ht : t ∈ T) :
    over ev a t = a t := by
  rw [over, Dict.get?_eq_none.2 (h.disj t ht)]; rfl

/-- Agreeing with the evidence. -/
theorem AskOk.ev_iff {B : BN V S ℝ} {dom : Dom V S} {T : List V} {ev : Obs V S} {a : V → S} (h : AskOk B dom T ev a) {order : List V}
    (hmem : ∀ v, v ∈ order ↔ v ∈ B.nodes) (b : V → S) :
    (∀ p ∈ ev, p.1 ∈ order ∧ b p.1 = p.2) ↔ ∀ v ∈ Dict.keys ev, b v = over ev a v := by
  constructor
  · intro hb v hv
    obtain ⟨s, hs⟩ := Dict.mem_keys.1 hv
    rw [(hb _ hs).2, h.over_ev hs]
  · intro hb p hp
    exact ⟨(hmem _).2 (h.evStates p hp).1, by rw [hb p.1 (Dict.mem_keys_of_mem (p := p) hp), h.over_ev hp]⟩

theorem AskOk.count_ev {B : BN V S ℝ} {dom : Dom V S} {T : List V} {ev : Obs V S} {a : V → S} (h : AskOk B dom T ev a) {order : List V}
    (hmem : ∀ v, v ∈ order ↔ v ∈ B.nodes) {n : Nat} (t : Fin n → V → S) :
    numRows (framed order (frame order n (padded t))) (fun r => Agrees r ev) = hits (fun r => ∀ v ∈ Dict.keys ev, r v = over ev a v) t := by
  have hpad : (fun i : Fin n => padded t i) = t := funext fun i => padded_lt t i
  rw [numRows_framed order n (padded t) (fun r => Agrees r ev) (fun r => ∀ v ∈ Dict.keys ev, r v = over ev a v), hpad]
  intro i _
  rw [← h.ev_iff hmem, Agrees]
  exact forall₂_congr fun p _ => mem_framed_row

theorem AskOk.laplaceOk {B : BN V S ℝ} {dom : Dom V S} {T : List V} {ev : Obs V S} {a : V → S} (h : AskOk B dom T ev a) (hB : B.Valid) (pre : Bool)
    {order : List V} (hnd : order.Nodup) (hmem : ∀ v, v ∈ order ↔ v ∈ B.nodes) {n : Nat} {t : Fin n → V → S} (ht : t ∈ tuples (allRecs B) n) :
    LaplaceOk (Laplace.mk (framed order (frame order n (padded t))) dom pre) T ev :=
  { wf := ⟨hnd, fun r hr => by
      simp only [framed, frame, List.map_map, List.mem_map, Function.comp_apply] at hr
      obtain ⟨i, _, rfl⟩ := hr
      simp [Dict.keys, Function.comp_def]; rfl⟩
    dom := h.domOk
    nonempty := h.nonempty
    nodup := h.nodup
    tdom := h.tdom
    tcols := fun v hv => (hmem v).2 (h.tnodes v hv)
    ecols := fun v hv => by
      obtain ⟨s, hs⟩ := Dict.mem_keys.1 hv
      exact (hmem v).2 (h.evStates _ hs).1
    disj := h.disj
    complete := fun r hr _ p hp hpT => by
      simp only [framed, frame, List.map_map, List.mem_map, Function.comp_apply, List.mem_range] at hr
      obtain ⟨i, hi, rfl⟩ := hr
      refine ⟨padded t i p.1, h.states p hp hpT _ (tuples_inStates hB ht i hi p.1 (h.tnodes _ hpT)), ?_⟩
      rw [← List.map_map]
      exact mem_framed_row.2 ⟨(hmem _).2 (h.tnodes _ hpT), rfl⟩ }

/-- The answer from records is a quotient of numbers of records. -/
theorem AskOk.answer {B : BN V S ℝ} {dom : Dom V S} {T : List V} {ev : Obs V S} {a : V → S} (h : AskOk B dom T ev a) (hB : B.Valid) (N : NanName S) (pre : Bool)
    {order : List V} (hnd : order.Nodup) (hmem : ∀ v, v ∈ order ↔ v ∈ B.nodes) {n : Nat} {t : Fin n → V → S} (ht : t ∈ tuples (allRecs B) n)
    (hpos : 0 < hits (fun r => ∀ v ∈ Dict.keys ev, r v = over ev a v) t) {obs : Obs V S} (hobs : Covers (dom.filter (fun p => p.1 ∈ T)) obs a) :
    ∃ f : Factor (storeOf vt : StoreImpl V S (Fl ℝ)),
      (Laplace.mk (framed order (frame order n (padded t))) dom pre).query N (storeOf vt) T ev = .ok f ∧
      f.getValue obs = .ok (.fin ((hits (fun r => ∀ v ∈ T ++ Dict.keys ev, r v = over ev a v) t : ℝ) /
        hits (fun r => ∀ v ∈ Dict.keys ev, r v = over ev a v) t)) := by
  have hpad : (fun i : Fin n => padded t i) = t := funext fun i => padded_lt t i
  have c1 := h.count_ev hmem t
  have c2 : numRows (framed order (frame order n (padded t))) (fun r => Agrees r ev ∧ AgreesOn r T a) =
      hits (fun r => ∀ v ∈ T ++ Dict.keys ev, r v = over ev a v) t := by
    rw [numRows_framed order n (padded t) (fun r => Agrees r ev ∧ AgreesOn r T a) (fun r => ∀ v ∈ T ++ Dict.keys ev, r v = over ev a v), hpad]
    intro i _
    simp only [List.mem_append, or_imp, forall_and]
    rw [← h.ev_iff hmem, Agrees, AgreesOn, and_comm]
    refine and_congr (forall₂_congr fun v hv => ?_) (forall₂_congr fun p _ => mem_framed_row)
    rw [mem_framed_row, h.over_T hv, and_iff_right ((hmem v).2 (h.tnodes v hv))]
  have hok := h.laplaceOk hB pre hnd hmem ht
  obtain ⟨f, f1, f2, f3, _, _, f6⟩ := C48_frequency (K := ℝ) vt N hok (by rw [c1]; exact hpos)
  refine ⟨f, f1, ?_⟩
  rw [f6 a obs (by
    rw [f3]
    intro p hp
    have hpT : p.1 ∈ T := by simpa using (List.mem_filter.1 hp).2
    exact h.states p (List.mem_filter.1 hp).1 hpT _ (h.asked _ hpT)) (by rw [f3]; exact hobs)]
  rw [c1, c2]

/-- For these draws, inference from the sampled records answers, and the answer is less than `ε` away from `p`. -/
def Near (m : DagModel F V S) (order : List V) (N : NanName S) (dom : Dom V S) (pre : Bool) (T : List V) (ev obs : Obs V S) (p ε : ℝ)
    {B : BN V S ℝ} {n : Nat} (x : UnitDraws B n) : Prop :=
  ∃ data, forwardSampling m order n x.at = .ok data ∧ ∃ f : Factor (storeOf vt : StoreImpl V S (Fl ℝ)),
    (Laplace.mk (framed order data) dom pre).query N (storeOf vt) T ev = .ok f ∧ ∃ q, f.getValue obs = .ok (.fin q) ∧ |q - p| < ε

section
variable {m : DagModel F V S} {B : BN V S ℝ} (hr : Represents m B) (hB : B.Valid) (hn : B.Normalised)
    (hnn : B.NonNeg) {n : Nat} (hn1 : 1 ≤ n) {order : List V} (ho : TopoOrder m.graph order)
    (N : NanName S) (pre : Bool) {dom : Dom V S} {T : List V} {a : V → S} {obs : Obs V S}

include hr hB hn hnn hn1 ho

/-- **C98** without evidence: the probability that the answer is `ε` or more away from the probability in the model is at most
`p (1 - p) / (n ε²)`. -/
theorem C98_marginal (h : AskOk B dom T [] a) (hobs : Covers (dom.filter (fun p => p.1 ∈ T)) obs a) {ε : ℝ} (hε : 0 < ε) :
    volume {x : UnitDraws B n | (∀ k, x k ∈ Set.Ico (0 : ℝ) 1) ∧ ¬ Near (vt := vt) m order N dom pre T [] obs (B.marg T a) ε x} ≤
      ENNReal.ofReal (B.marg T a * (1 - B.marg T a) / (n * ε ^ 2)) := by
  have hne : B.nodes ≠ [] := fun e => by
    obtain ⟨t, ht⟩ := List.exists_mem_of_ne_nil _ h.nonempty
    have := h.tnodes t ht
    rw [e] at this; cases this
  have hmem : ∀ v, v ∈ order ↔ v ∈ B.nodes := fun v => by rw [ho.perm.mem_iff, hr.nodes]
  have hnd : order.Nodup := ho.perm.nodup_iff.2 hr.wf.nodes
  refine (volume_le hr hB hn hnn hn1 hne ho (fun t => ε ≤ |(hits (fun r => ∀ v ∈ T, r v = a v) t : ℝ) / n - B.marg T a|) _ ?_).trans
    (ENNReal.ofReal_le_ofReal (chebyshev (allRecs B) B.joint _ (fun r => joint_nonneg_rec hB hnn) (sum_joint hB hn) hn1 hε
      (sum_allRecs hB h.tnodes h.asked)))
  intro t ht hq x hx
  have hall : hits (fun r : V → S => ∀ v ∈ Dict.keys ([] : Obs V S), r v = over [] a v) t = n := by simp [hits, Dict.keys]
  obtain ⟨f, f1, f2⟩ := h.answer (vt := vt) hB N pre hnd hmem ht (by rw [hall]; exact hn1) hobs
  refine ⟨_, hx.2, f, f1, _, f2, ?_⟩
  rw [hall]
  have e : (fun r : V → S => ∀ v ∈ T ++ Dict.keys ([] : Obs V S), r v = over [] a v) = fun r => ∀ v ∈ T, r v = a v := by
    funext r; simp [Dict.keys]
  simp only [e]
  exact not_le.1 hq

/-- **C98** with evidence of positive probability `q`, where `p` is the probability of target and evidence together. -/
theorem C98_posterior {ev : Obs V S} (h : AskOk B dom T ev a) (hobs : Covers (dom.filter (fun p => p.1 ∈ T)) obs a)
    (hq : 0 < B.marg (Dict.keys ev) (over ev a)) {ε : ℝ} (hε : 0 < ε) (hε2 : ε ≤ 2) :
    volume {x : UnitDraws B n | (∀ k, x k ∈ Set.Ico (0 : ℝ) 1) ∧ ¬ Near (vt := vt) m order N dom pre T ev obs (B.post T ev a) ε x} ≤
      ENNReal.ofReal (4 * (B.marg (T ++ Dict.keys ev) (over ev a) * (1 - B.marg (T ++ Dict.keys ev) (over ev a)) +
        B.marg (Dict.keys ev) (over ev a) * (1 - B.marg (Dict.keys ev) (over ev a))) / (n * (ε * B.marg (Dict.keys ev) (over ev a)) ^ 2)) := by
  have hne : B.nodes ≠ [] := fun e => by
    obtain ⟨t, ht⟩ := List.exists_mem_of_ne_nil _ h.nonempty
    have := h.tnodes t ht
    rw [e] at this; cases this
  have hmem : ∀ v, v ∈ order ↔ v ∈ B.nodes := fun v => by rw [ho.perm.mem_iff, hr.nodes]
  have hnd : order.Nodup := ho.perm.nodup_iff.2 hr.wf.nodes
  have hn0 : (0 : ℝ) < n := by exact_mod_cast hn1
  have hevn : ∀ v ∈ Dict.keys ev, v ∈ B.nodes ∧ over ev a v ∈ B.states v := fun v hv => by
    obtain ⟨s, hs⟩ := Dict.mem_keys.1 hv
    exact ⟨(h.evStates _ hs).1, by rw [h.over_ev hs]; exact (h.evStates _ hs).2⟩
  have hTev : ∀ v ∈ T ++ Dict.keys ev, v ∈ B.nodes ∧ over ev a v ∈ B.states v := fun v hv => by
    rcases List.mem_append.1 hv with hv | hv
    · exact ⟨h.tnodes v hv, by rw [h.over_T hv]; exact h.asked v hv⟩
    · exact hevn v hv
  generalize hpe : B.marg (T ++ Dict.keys ev) (over ev a) = p at *
  generalize hqe : B.marg (Dict.keys ev) (over ev a) = q at *
  have hpost : B.post T ev a = p / q := by rw [BN.post, hpe, hqe]
  let δ := ε * q / 2
  have hδ : 0 < δ := by positivity
  let A : (V → S) → Prop := fun r => ∀ v ∈ T ++ Dict.keys ev, r v = over ev a v
  let E : (V → S) → Prop := fun r => ∀ v ∈ Dict.keys ev, r v = over ev a v
  have ch1 := chebyshev (n := n) (allRecs B) B.joint A (fun r => joint_nonneg_rec hB hnn) (sum_joint hB hn) hn1 hδ
    ((sum_allRecs hB (fun v hv => (hTev v hv).1) fun v hv => (hTev v hv).2).trans hpe)
  have ch2 := chebyshev (n := n) (allRecs B) B.joint E (fun r => joint_nonneg_rec hB hnn) (sum_joint hB hn) hn1 hδ
    ((sum_allRecs hB (fun v hv => (hevn v hv).1) fun v hv => (hevn v hv).2).trans hqe)
  have hw : ∀ t ∈ tuples (allRecs B) n, 0 ≤ ∏ k, B.joint (t k) := fun t ht => Finset.prod_nonneg fun k _ =>
    joint_nonneg_rec hB hnn (Fintype.mem_piFinset.1 ht k)
  refine (volume_le hr hB hn hnn hn1 hne ho (fun t => δ ≤ |(hits A t : ℝ) / n - p| ∨ δ ≤ |(hits E t : ℝ) / n - q|) _ ?_).trans
    (ENNReal.ofReal_le_ofReal ?_)
  · intro t ht hQ x hx
    rw [not_or, not_le, not_le] at hQ
    obtain ⟨hA, hE⟩ := hQ
    have hEpos : 0 < hits E t := by
      rcases Nat.eq_zero_or_pos (hits E t) with h0 | h0
      · exfalso
        rw [h0] at hE
        simp only [Nat.cast_zero, zero_div, zero_sub, abs_neg, abs_of_pos hq] at hE
        have : δ ≤ q := by simp only [δ]; nlinarith
        linarith
      · exact h0
    obtain ⟨f, f1, f2⟩ := h.answer (vt := vt) hB N pre hnd hmem ht hEpos hobs
    refine ⟨_, hx.2, f, f1, _, f2, ?_⟩
    rw [hpost]
    have hle : hits A t ≤ hits E t := Finset.card_le_card fun i hi => by
      simp only [Finset.mem_filter, Finset.mem_univ, true_and] at hi ⊢
      exact fun v hv => hi v (List.mem_append_right _ hv)
    show |(hits A t : ℝ) / hits E t - p / q| < ε
    have hE0 : (0 : ℝ) < hits E t := by exact_mod_cast hEpos
    have hr1 : (hits A t : ℝ) / hits E t ≤ 1 := (div_le_one hE0).2 (by exact_mod_cast hle)
    have hr0 : 0 ≤ (hits A t : ℝ) / hits E t := by positivity
    have key : (hits A t : ℝ) / hits E t - p / q =
        (((hits A t : ℝ) / n - p) - (hits A t : ℝ) / hits E t * ((hits E t : ℝ) / n - q)) / q := by
      field_simp
      ring
    rw [key, abs_div, abs_of_pos hq, div_lt_iff₀ hq]
    calc |((hits A t : ℝ) / n - p) - (hits A t : ℝ) / hits E t * ((hits E t : ℝ) / n - q)|
        ≤ |(hits A t : ℝ) / n - p| + |(hits A t : ℝ) / hits E t * ((hits E t : ℝ) / n - q)| := abs_sub _ _
      _ ≤ |(hits A t : ℝ) / n - p| + 1 * |(hits E t : ℝ) / n - q| := by
          rw [abs_mul, abs_of_nonneg hr0]
          gcongr
      _ < δ + δ := by linarith
      _ = ε * q := by simp only [δ]; ring
  · refine le_trans ?_ ((add_le_add ch1 ch2).trans (le_of_eq ?_))
    · simp only [Finset.sum_filter, ← Finset.sum_add_distrib]
      refine Finset.sum_le_sum fun t ht => ?_
      have := hw t ht
      by_cases h1 : δ ≤ |(hits A t : ℝ) / n - p| <;> by_cases h2 : δ ≤ |(hits E t : ℝ) / n - q| <;> simp [h1, h2, this]
    simp only [δ]
    field_simp
    ring

/-- **C98** (violation) with evidence of probability `q` there is no answer with probability `(1 - q) ^ n`: when no record agrees with the
evidence, `ZeroDivisionError` is raised. -/
theorem C98_no_answer {ev : Obs V S} (h : AskOk B dom T ev a) :
    volume {x : UnitDraws B n | (∀ k, x k ∈ Set.Ico (0 : ℝ) 1) ∧ ∃ data, forwardSampling m order n x.at = .ok data ∧
      (Laplace.mk (framed order data) dom pre).query N (storeOf vt : StoreImpl V S (Fl ℝ)) T ev = .error .zeroDivision} =
      ENNReal.ofReal ((1 - B.marg (Dict.keys ev) (over ev a)) ^ n) := by
  have hne : B.nodes ≠ [] := fun e => by
    obtain ⟨t, ht⟩ := List.exists_mem_of_ne_nil _ h.nonempty
    have := h.tnodes t ht
    rw [e] at this; cases this
  have hmem : ∀ v, v ∈ order ↔ v ∈ B.nodes := fun v => by rw [ho.perm.mem_iff, hr.nodes]
  have hnd : order.Nodup := ho.perm.nodup_iff.2 hr.wf.nodes
  have hevn : ∀ v ∈ Dict.keys ev, v ∈ B.nodes ∧ over ev a v ∈ B.states v := fun v hv => by
    obtain ⟨s, hs⟩ := Dict.mem_keys.1 hv
    exact ⟨(h.evStates _ hs).1, by rw [h.over_ev hs]; exact (h.evStates _ hs).2⟩
  let E : (V → S) → Prop := fun r => ∀ v ∈ Dict.keys ev, r v = over ev a v
  rw [volume_eq hr hB hn hnn hn1 hne ho (fun t => ∀ i, ¬ E (t i)) _ fun t ht x hx => ?_]
  · congr 1
    have e : (tuples (allRecs B) n).filter (fun t => ∀ i, ¬ E (t i)) = tuples ((allRecs B).filter fun r => ¬ E r) n := by
      ext t
      simp only [tuples, Finset.mem_filter, Fintype.mem_piFinset, forall_and]
    have hsum := Finset.sum_filter_add_sum_filter_not (allRecs B) E B.joint
    rw [sum_joint hB hn, sum_allRecs hB (fun v hv => (hevn v hv).1) fun v hv => (hevn v hv).2] at hsum
    rw [e, sum_tuples_prod _ fun _ => B.joint, Finset.prod_const, Finset.card_univ, Fintype.card_fin]
    congr 1
    linarith
  · have c1 := h.count_ev hmem t
    have hok := h.laplaceOk hB pre hnd hmem ht
    have h0 : hits E t = 0 ↔ ∀ i, ¬ E (t i) := by simp [hits, Finset.filter_eq_empty_iff]
    constructor
    · rintro ⟨data, d1, d2⟩
      rw [hx.2] at d1
      injection d1 with d1
      rw [← h0]
      by_contra hne0
      obtain ⟨f, f1, _⟩ := C48_frequency (K := ℝ) vt N hok (by rw [c1]; exact Nat.pos_of_ne_zero hne0)
      rw [← d1, f1] at d2
      cases d2
    · intro hE
      exact ⟨_, hx.2, C48_no_records vt N hok (by rw [c1]; exact h0.2 hE)⟩

/-- **C98** without evidence the expected answer is the probability in the model: `est x` is the answer for the draws `x`. -/
theorem C98_unbiased (h : AskOk B dom T [] a) (hobs : Covers (dom.filter (fun p => p.1 ∈ T)) obs a) {est : UnitDraws B n → ℝ}
    (hest : ∀ x : UnitDraws B n, (∀ k, x k ∈ Set.Ico (0 : ℝ) 1) → ∃ data, forwardSampling m order n x.at = .ok data ∧
      ∃ f : Factor (storeOf vt : StoreImpl V S (Fl ℝ)), (Laplace.mk (framed order data) dom pre).query N (storeOf vt) T [] = .ok f ∧
        f.getValue obs = .ok (.fin (est x))) :
    ∫ x in {x : UnitDraws B n | ∀ k, x k ∈ Set.Ico (0 : ℝ) 1}, est x = B.marg T a := by
  have hne : B.nodes ≠ [] := fun e => by
    obtain ⟨t, ht⟩ := List.exists_mem_of_ne_nil _ h.nonempty
    have := h.tnodes t ht
    rw [e] at this; cases this
  have hmem : ∀ v, v ∈ order ↔ v ∈ B.nodes := fun v => by rw [ho.perm.mem_iff, hr.nodes]
  have hnd : order.Nodup := ho.perm.nodup_iff.2 hr.wf.nodes
  have hn0 : (0 : ℝ) < n := by exact_mod_cast hn1
  have hU : {x : UnitDraws B n | ∀ k, x k ∈ Set.Ico (0 : ℝ) 1} = ⋃ t ∈ tuples (allRecs B) n, drawsOf m B order t := by
    ext x
    simp only [Set.mem_setOf_eq, Set.mem_iUnion]
    constructor
    · intro hx
      obtain ⟨t, ht, hxt⟩ := exists_drawsOf hr hB hn hnn hn1 hne ho hx
      exact ⟨t, ht, hxt⟩
    · rintro ⟨t, _, hxt⟩; exact hxt.1
  have hval : ∀ t ∈ tuples (allRecs B) n, ∀ x ∈ drawsOf m B order t, est x = (hits (fun r => ∀ v ∈ T, r v = a v) t : ℝ) / n := by
    intro t ht x hx
    have hall : hits (fun r : V → S => ∀ v ∈ Dict.keys ([] : Obs V S), r v = over [] a v) t = n := by simp [hits, Dict.keys]
    obtain ⟨f, f1, f2⟩ := h.answer (vt := vt) hB N pre hnd hmem ht (by rw [hall]; exact hn1) hobs
    obtain ⟨data, d1, f', g1, g2⟩ := hest x hx.1
    rw [hx.2] at d1
    injection d1 with d1
    rw [← d1, f1] at g1
    injection g1 with g1
    rw [← g1, f2, hall] at g2
    have e : (fun r : V → S => ∀ v ∈ T ++ Dict.keys ([] : Obs V S), r v = over [] a v) = fun r => ∀ v ∈ T, r v = a v := by
      funext r; simp [Dict.keys]
    simp only [e] at g2
    injection g2 with g2
    injection g2 with g2
    exact g2.symm
  have hms : ∀ t ∈ tuples (allRecs B) n, MeasurableSet (drawsOf m B order t) := fun t ht => measurable_drawsOf hr hB hn hnn hn1 hne ho ht
  have hvol : ∀ t ∈ tuples (allRecs B) n, volume (drawsOf m B order t) = ENNReal.ofReal (∏ k, B.joint (t k)) := fun t ht =>
    volume_drawsOf hr hB hn hnn hn1 hne ho ht
  have hw : ∀ t ∈ tuples (allRecs B) n, 0 ≤ ∏ k, B.joint (t k) := fun t ht => Finset.prod_nonneg fun k _ =>
    joint_nonneg_rec hB hnn (Fintype.mem_piFinset.1 ht k)
  rw [hU, integral_biUnion_finset _ hms]
  · have e : ∀ t ∈ tuples (allRecs B) n, ∫ x in drawsOf m B order t, est x =
        (∏ k, B.joint (t k)) * hits (fun r => ∀ v ∈ T, r v = a v) t / n := by
      intro t ht
      rw [setIntegral_congr_fun (hms t ht) (hval t ht), setIntegral_const, Measure.real, hvol t ht, ENNReal.toReal_ofReal (hw t ht), smul_eq_mul,
        mul_div_assoc]
    rw [Finset.sum_congr rfl e, ← Finset.sum_div, sum_tuples_hits _ _ _ (sum_joint hB hn), sum_allRecs hB h.tnodes h.asked]
    field_simp
  · exact fun t ht t' ht' hne' => disjoint_drawsOf hr hB ho ht ht' hne'
  · intro t ht
    refine IntegrableOn.congr_fun (f := fun _ => (hits (fun r => ∀ v ∈ T, r v = a v) t : ℝ) / n) ?_ (fun x hx => (hval t ht x hx).symm) (hms t ht)
    exact integrableOn_const (by rw [hvol t ht]; exact ENNReal.ofReal_ne_top)

/-- Without evidence there is always an answer. -/
theorem C98_answers (h : AskOk B dom T [] a) (hobs : Covers (dom.filter (fun p => p.1 ∈ T)) obs a) {x : UnitDraws B n}
    (hx : ∀ k, x k ∈ Set.Ico (0 : ℝ) 1) : ∃ data, forwardSampling m order n x.at = .ok data ∧
      ∃ f : Factor (storeOf vt : StoreImpl V S (Fl ℝ)), (Laplace.mk (framed order data) dom pre).query N (storeOf vt) T [] = .ok f ∧
        ∃ q, f.getValue obs = .ok (.fin q) := by
  have hne : B.nodes ≠ [] := fun e => by
    obtain ⟨t, ht⟩ := List.exists_mem_of_ne_nil _ h.nonempty
    have := h.tnodes t ht
    rw [e] at this; cases this
  obtain ⟨t, ht, hxt⟩ := exists_drawsOf hr hB hn hnn hn1 hne ho hx
  have hall : hits (fun r : V → S => ∀ v ∈ Dict.keys ([] : Obs V S), r v = over [] a v) t = n := by simp [hits, Dict.keys]
  obtain ⟨f, f1, f2⟩ := h.answer (vt := vt) hB N pre (ho.perm.nodup_iff.2 hr.wf.nodes)
    (fun v => by rw [ho.perm.mem_iff, hr.nodes]) ht (by rw [hall]; exact hn1) hobs
  exact ⟨_, hxt.2, f, f1, _, f2⟩

end

section
variable {m : DagModel F V S} {B : BN V S ℝ} (hr : Represents m B) (hB : B.Valid) (hn : B.Normalised)
    (hnn : B.NonNeg) {order : List V} (ho : TopoOrder m.graph order)
    (N : NanName S) (pre : Bool) {dom : Dom V S} {T : List V} {a : V → S} {obs : Obs V S}

include hr hB hn hnn ho

/-- **C98** with more and more records the answer gets as near as one likes to the conditional probability in the model, for every
evidence of positive probability. -/
theorem C98_consistent {ev : Obs V S} (h : AskOk B dom T ev a) (hobs : Covers (dom.filter (fun p => p.1 ∈ T)) obs a)
    (hq : 0 < B.marg (Dict.keys ev) (over ev a)) {ε : ℝ} (hε : 0 < ε) :
    Filter.Tendsto (fun n : Nat => volume {x : UnitDraws B n | (∀ k, x k ∈ Set.Ico (0 : ℝ) 1) ∧
      ¬ Near (vt := vt) m order N dom pre T ev obs (B.post T ev a) ε x}) Filter.atTop (nhds 0) := by
  let ε' := min ε 2
  have hε' : 0 < ε' := lt_min hε two_pos
  generalize hc : 4 * (B.marg (T ++ Dict.keys ev) (over ev a) * (1 - B.marg (T ++ Dict.keys ev) (over ev a)) +
        B.marg (Dict.keys ev) (over ev a) * (1 - B.marg (Dict.keys ev) (over ev a))) = c
  have hlim : Filter.Tendsto (fun n : Nat => ENNReal.ofReal (c / (n * (ε' * B.marg (Dict.keys ev) (over ev a)) ^ 2))) Filter.atTop (nhds 0) := by
    rw [← ENNReal.ofReal_zero]
    refine (ENNReal.continuous_ofReal.tendsto _).comp ?_
    have e : (fun n : Nat => c / (n * (ε' * B.marg (Dict.keys ev) (over ev a)) ^ 2)) =
        fun n : Nat => (c / (ε' * B.marg (Dict.keys ev) (over ev a)) ^ 2) / (n : ℝ) := by
      funext n; rw [div_div, mul_comm]
    rw [e]
    exact tendsto_const_div_atTop_nhds_zero_nat _
  refine tendsto_of_tendsto_of_tendsto_of_le_of_le' tendsto_const_nhds hlim (Filter.Eventually.of_forall fun _ => zero_le) ?_
  filter_upwards [Filter.eventually_ge_atTop 1] with n hn1
  have key := C98_posterior (vt := vt) hr hB hn hnn hn1 ho N pre h hobs hq hε' (min_le_right _ _)
  rw [hc] at key
  refine (measure_mono ?_).trans key
  rintro x ⟨h1, h2⟩
  refine ⟨h1, fun ⟨data, d1, f, f1, q, f2, f3⟩ => h2 ⟨data, d1, f, f1, q, f2, f3.trans_le (min_le_left _ _)⟩⟩

end

end

/-- The second node of the example network is asked for after the first was seen. -/
theorem pairNet_ask : AskOk (pairNet ℝ) [(false, [false, true]), (true, [false, true])] [true] [(false, true)] (fun _ => true) where
  domOk := ⟨by simp [Dict.keys], by simp, by simp⟩
  nonempty := by simp
  nodup := by simp
  tdom := by simp [Dict.keys]
  tnodes := by simp [pairNet]
  states := by simp [pairNet]
  evNodup := by simp [Dict.keys]
  evStates := by simp [pairNet]
  disj := by simp [Dict.keys]
  asked := by simp [pairNet]

/-- **C98** holds for a network with two nodes: the conditional probability is `1/2`, and there is no answer with probability
`(2/3) ^ n`. -/
theorem C98_example (vt : VType) (N : NanName Bool) : ∃ m, buildNet vt (pairNet ℝ) (graphOf (pairNet ℝ)) (domOf (pairNet ℝ)) [false, true] true = .ok m ∧
    (∀ ε > 0, Filter.Tendsto (fun n : Nat => MeasureTheory.volume {x : UnitDraws (pairNet ℝ) n | (∀ k, x k ∈ Set.Ico (0 : ℝ) 1) ∧
      ¬ Near (vt := vt) m [false, true] N [(false, [false, true]), (true, [false, true])] true [true] [(false, true)] [(true, true)] (1 / 2) ε x})
      Filter.atTop (nhds 0)) ∧
    ∀ n ≥ 1, MeasureTheory.volume {x : UnitDraws (pairNet ℝ) n | (∀ k, x k ∈ Set.Ico (0 : ℝ) 1) ∧ ∃ data, forwardSampling m [false, true] n x.at = .ok data ∧
      (Laplace.mk (framed [false, true] data) [(false, [false, true]), (true, [false, true])] true).query N
        (storeOf vt : StoreImpl Bool Bool (Fl ℝ)) [true] [(false, true)] = .error .zeroDivision} = ENNReal.ofReal ((2 / 3) ^ n) := by
  obtain ⟨m, h1, h2, h3⟩ := C93_example vt ℝ
  have ho : TopoOrder m.graph [false, true] := by rw [h2]; exact pairNet_topo
  have hq : (pairNet ℝ).marg (Dict.keys [(false, true)]) (over [(false, true)] fun _ => true) = 1 / 3 := by
    simp [BN.marg, pairNet, Dict.keys, sumOver, BN.joint, over, Dict.get?, upd]
    norm_num
  have hp : (pairNet ℝ).post [true] [(false, true)] (fun _ => true) = 1 / 2 := by
    rw [BN.post, hq]
    simp [BN.marg, pairNet, Dict.keys, sumOver, BN.joint, over, Dict.get?, upd]
    norm_num
  refine ⟨m, h1, fun ε hε => ?_, fun n hn => ?_⟩
  · have := C98_consistent (vt := vt) h3 (pairNet_valid ℝ) (pairNet_normalised ℝ) (pairNet_nonneg ℝ) ho N true pairNet_ask
      (obs := [(true, true)]) (by simp [Covers, Dict.keys, Dict.get?]) (by rw [hq]; norm_num) hε
    rw [hp] at this
    exact this
  · rw [C98_no_answer (vt := vt) h3 (pairNet_valid ℝ) (pairNet_normalised ℝ) (pairNet_nonneg ℝ) hn ho N true pairNet_ask, hq]
    norm_num

end Verif.Props
