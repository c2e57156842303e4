import Verif.Model.SampleCols
import Verif.Props.SamplingDist
import Verif.Props.Convert

/-!
# C96: sampling the endogenous variables of a causal model
-/

set_option linter.unusedSectionVars false
set_option linter.unusedSimpArgs false

namespace Verif.Props
open Verif

section
variable {V S K : Type} [DecidableEq V] [DecidableEq S] [Inhabited S] [Field K] [LinearOrder K] [IsStrictOrderedRing K] {vt : VType}

/-- What sampling returns is a data frame over the nodes. -/
theorem sampled_frame {F : Type} [VEFactor F (storeOf vt : StoreImpl V S (Fl K))] {m : DagModel F V S} {B : BN V S K} (hr : Represents m B)
    (hB : B.Valid) (hn : B.Normalised) (hnn : B.NonNeg) {n : Nat} (hn1 : 1 ≤ n) (hne : B.nodes ≠ []) {u : V → Nat → K}
    (hu : ∀ v i, 0 ≤ u v i ∧ u v i < 1) {order : List V} (ho : TopoOrder m.graph order) :
    ∃ b : Nat → V → S, (∀ i < n, B.InStates (b i)) ∧ forwardSampling m order n u = .ok (frame order n b) := by
  obtain ⟨data, h1, h2, h3, h4⟩ := forwardSampling_ok (storeOf_lawful vt) hr hB hn hnn hn1 hu ho order [] [] rfl
    (by simp [recsOf]) (fun _ => rfl) (by
      intro i hi
      simp only [recsOf, if_true, List.getElem_replicate]
      exact ⟨rfl, by simp, by simp⟩)
  have hone : order ≠ [] := fun e => by
    have := ho.perm
    rw [e, List.nil_perm, hr.nodes] at this
    exact hne this
  have hdata : recsOf n data = data := by rw [recsOf, if_neg fun e => hone (h3 e)]
  simp only [hdata] at h2 h4
  have hmem : ∀ v, v ∈ order ↔ v ∈ B.nodes := fun v => by rw [ho.perm.mem_iff, hr.nodes]
  have hnd : order.Nodup := ho.perm.nodup_iff.2 hr.wf.nodes
  refine ⟨fun i => asg (data.getD i []), fun i hi v hv => ?_, ?_⟩
  · have hid : i < data.length := by rw [h2]; exact hi
    obtain ⟨s, hs, hg⟩ := (h4 i hid).states v ((hmem v).2 hv)
    have e : data.getD i [] = data[i] := by simp [List.getD, hid]
    simp only [e]
    rw [asg, over_of_get? hg]; exact hs
  · rw [show forwardSampling m order n u = .ok data from h1]
    congr 1
    refine List.ext_getElem (by simp [frame, h2]) fun i hi _ => ?_
    simp only [frame, List.getElem_map, List.getElem_range]
    refine record_eq hnd (h4 i hi).keys fun v hv => ?_
    obtain ⟨s, hs, hg⟩ := (h4 i hi).states v hv
    have e : data.getD i [] = data[i] := by simp [List.getD, hi]
    rw [e, asg, hg, over_of_get? hg]

theorem frame_inj {cols : List V} {n : Nat} {a b : Nat → V → S} :
    frame cols n a = frame cols n b ↔ ∀ i < n, ∀ v ∈ cols, a i v = b i v := by
  simp only [frame, List.map_inj_left, List.mem_range, Prod.mk.injEq, true_and]

/-- The columns of a data frame. -/
theorem selectCols_frame {order cols : List V} (ho : order.Nodup) (hc : ∀ v ∈ cols, v ∈ order) (n : Nat) (a : Nat → V → S) :
    selectCols cols (frame order n a) = .ok (frame cols n a) := by
  rw [selectCols, frame, List.mapM_map]
  refine mapM_ok fun i _ => mapM_ok fun v hv => ?_
  have : Dict.get? (order.map fun v => (v, a i v)) v = some (a i v) :=
    Dict.get?_of_mem (by simpa [Dict.keys, Function.comp_def] using ho) (List.mem_map.2 ⟨v, hc v hv, rfl⟩)
  rw [Dict.get, this]; rfl

end

section
variable {V S K : Type} [DecidableEq V] [DecidableEq S] [Inhabited S] [Field K] [LinearOrder K] [IsStrictOrderedRing K] {vt : VType}

local notation "II" => (storeOf vt : StoreImpl V S (Fl K))
local notation "LL" => (labelStoreOf vt : LabelStore V S)

/-- **C96** for draws in `[0, 1)`, a causal model is sampled exactly when it has no deterministic factors: the data frame then has
the endogenous variables as columns, `n` rows and states of the variables. Otherwise TypeError is raised. -/
theorem C96_sampled {m : SCM II LL} {B : BN V S K} (h : m.Rep B) (hB : B.Valid) (hn : B.Normalised) (hnn : B.NonNeg) {n : Nat}
    (hn1 : 1 ≤ n) (hne : B.nodes ≠ []) (hend : ∀ v ∈ m.endogenous, v ∈ B.nodes) {u : V → Nat → K} (hu : ∀ v i, 0 ≤ u v i ∧ u v i < 1)
    {order : List V} (ho : TopoOrder m.base.graph order) :
    ((∀ v ∈ B.nodes, ∀ f, Dict.get? m.base.factors v = some (some f) → f.isDet = false) → ∃ a : Nat → V → S, (∀ i < n, B.InStates (a i)) ∧
      m.sampleEndogenous order n u true = .ok (frame m.endogenous n a)) ∧
    (¬(∀ v ∈ B.nodes, ∀ f, Dict.get? m.base.factors v = some (some f) → f.isDet = false) →
      m.sampleEndogenous order n u true = .error .typeError) := by
  refine ⟨fun hd => ?_, fun hd => ?_⟩
  · have hr := h.represents fun v f hf => hd v (by rw [← h.nodes, ← h.keys]; exact Dict.get?_isSome.1 (by rw [hf]; rfl)) f hf
    obtain ⟨b, h1, h2⟩ := sampled_frame hr hB hn hnn hn1 hne hu ho
    refine ⟨b, h1, ?_⟩
    rw [SCM.sampleEndogenous, h2, py_ok_bind, if_pos rfl]
    exact selectCols_frame (ho.perm.nodup_iff.2 h.wf.nodes) (fun v hv => ho.perm.mem_iff.2 (by rw [h.nodes]; exact hend v hv)) n b
  · simp only [not_forall, Bool.not_eq_false] at hd
    obtain ⟨v, hv, f, h1, h2⟩ := hd
    rw [SCM.sampleEndogenous, h.sampling_det hB hn hnn hn1 hu ho ⟨v, hv, f, h1, h2⟩]
    rfl

/-- **C96** (violation) with `as_pandas=False` there are never any records: the list of records is indexed by a list of names. -/
theorem C96_records_fail (m : SCM II LL) (order : List V) (n : Nat) (u : V → Nat → K) (r : List (Obs V S)) :
    m.sampleEndogenous order n u false ≠ .ok r := by
  rw [SCM.sampleEndogenous]
  cases (forwardSampling (I := II) m.base order n u) with
  | error e => intro h; cases h
  | ok d => intro h; cases h

end

section
open MeasureTheory
variable {V S : Type} [DecidableEq V] [DecidableEq S] [Inhabited S] {vt : VType}
  {F : Type} [VEFactor F (storeOf vt : StoreImpl V S (Fl ℝ))]

/-- Any columns of the sampled records: the records are independent and each has the marginal distribution of these
variables. -/
theorem C96_columns {m : DagModel F V S} {B : BN V S ℝ} (hr : Represents m B) (hB : B.Valid) (hn : B.Normalised)
    (hnn : B.NonNeg) {n : Nat} (hn1 : 1 ≤ n) (hne : B.nodes ≠ []) {order : List V} (ho : TopoOrder m.graph order) {cols : List V}
    (hc : ∀ v ∈ cols, v ∈ B.nodes) {a : Nat → V → S} (ha : ∀ i < n, ∀ v ∈ cols, a i v ∈ B.states v) :
    volume {x : UnitDraws B n | (∀ k, x k ∈ Set.Ico (0 : ℝ) 1) ∧
        (do let d ← forwardSampling m order n x.at; selectCols cols d) = .ok (frame cols n a)} =
      ENNReal.ofReal ((List.range n).map fun i => B.marg cols (a i)).prod := by
  classical
  have hmem : ∀ v, v ∈ order ↔ v ∈ B.nodes := fun v => by rw [ho.perm.mem_iff, hr.nodes]
  have hnd : order.Nodup := ho.perm.nodup_iff.2 hr.wf.nodes
  let hid := B.nodes.filter (· ∉ cols)
  have hhid : ∀ v, v ∈ hid ↔ v ∈ B.nodes ∧ v ∉ cols := fun v => by simp [hid]
  have hhn : hid.Nodup := hB.nodes.filter _
  let E : Finset (Fin n → V → S) := Fintype.piFinset fun i => (exts B.states hid (a i)).toFinset
  have hE : ∀ e, e ∈ E ↔ ∀ i : Fin n, (∀ v, v ∉ hid → e i v = a i v) ∧ ∀ v ∈ hid, e i v ∈ B.states v := fun e => by
    simp only [E, Fintype.mem_piFinset, List.mem_toFinset, mem_exts hhn]
  let g : (Fin n → V → S) → Nat → V → S := fun e i => if h : i < n then e ⟨i, h⟩ else a i
  have hg : ∀ e i (h : i < n), g e i = e ⟨i, h⟩ := fun e i h => dif_pos h
  have hin : ∀ e ∈ E, ∀ i < n, B.InStates (g e i) := by
    intro e he i hi v hv
    rw [hg e i hi]
    obtain ⟨h1, h2⟩ := (hE e).1 he ⟨i, hi⟩
    by_cases hvc : v ∈ cols
    · rw [h1 v fun h => ((hhid v).1 h).2 hvc]; exact ha i hi v hvc
    · exact h2 v ((hhid v).2 ⟨hv, hvc⟩)
  have hU : {x : UnitDraws B n | (∀ k, x k ∈ Set.Ico (0 : ℝ) 1) ∧
        (do let d ← forwardSampling m order n x.at; selectCols cols d) = .ok (frame cols n a)} =
      ⋃ e ∈ E, {x : UnitDraws B n | (∀ k, x k ∈ Set.Ico (0 : ℝ) 1) ∧ forwardSampling m order n x.at = .ok (frame order n (g e))} := by
    ext x
    simp only [Set.mem_setOf_eq, Set.mem_iUnion]
    constructor
    · rintro ⟨h1, h2⟩
      have hat : ∀ v i, 0 ≤ x.at v i ∧ x.at v i < 1 := by
        intro v i
        unfold UnitDraws.at
        split
        · exact h1 _
        · exact ⟨le_refl 0, one_pos⟩
      obtain ⟨b, b1, b2⟩ := sampled_frame hr hB hn hnn hn1 hne hat ho
      rw [b2, py_ok_bind, selectCols_frame hnd (fun v hv => (hmem v).2 (hc v hv))] at h2
      injection h2 with h2
      rw [frame_inj] at h2
      refine ⟨fun i v => if v ∈ hid then b i v else a i v, (hE _).2 fun i => ⟨fun v hv => if_neg hv, fun v hv => ?_⟩, h1, ?_⟩
      · show (if v ∈ hid then b i v else a i v) ∈ _
        rw [if_pos hv]; exact b1 i i.2 v ((hhid v).1 hv).1
      · rw [b2]
        congr 1
        rw [frame_inj]
        intro i hi v hv
        refine Eq.trans ?_ (congrFun (hg (fun i v => if v ∈ hid then b i v else a i v) i hi) v).symm
        show b i v = if v ∈ hid then b i v else a i v
        split
        · rfl
        · rename_i hvh
          refine h2 i hi v ?_
          by_contra hvc
          exact hvh ((hhid v).2 ⟨(hmem v).1 hv, hvc⟩)
    · rintro ⟨e, he, h1, h2⟩
      refine ⟨h1, ?_⟩
      rw [h2, py_ok_bind, selectCols_frame hnd (fun v hv => (hmem v).2 (hc v hv))]
      congr 1
      rw [frame_inj]
      intro i hi v hv
      rw [hg e i hi]
      exact ((hE e).1 he ⟨i, hi⟩).1 v fun h => ((hhid v).1 h).2 hv
  rw [hU, measure_biUnion_finset]
  · rw [Finset.sum_congr rfl fun e he => C92_distribution hr hB hn hnn hn1 hne ho (hin e he),
      ← ENNReal.ofReal_sum_of_nonneg fun e he => List.prod_nonneg fun k hk => by
        obtain ⟨i, hi, rfl⟩ := List.mem_map.1 hk
        exact List.prod_nonneg fun k hk => by
          obtain ⟨v, hv, rfl⟩ := List.mem_map.1 hk
          exact hnn v hv _ (hin e he i (List.mem_range.1 hi))]
    congr 1
    have hlist : ∀ f : Nat → ℝ, ((List.range n).map f).prod = ∏ i : Fin n, f i := by
      intro f
      rw [← List.prod_ofFn]
      congr 1
      exact List.ext_getElem (by simp) fun i hi _ => by simp
    rw [hlist]
    have hm : ∀ i : Fin n, B.marg cols (a i) = ∑ b ∈ (exts B.states hid (a i)).toFinset, B.joint b := by
      intro i
      rw [BN.marg, sumOver_exts, List.sum_toFinset _ (nodup_exts hhn (fun v hv => hB.nodupStates v ((hhid v).1 hv).1) _)]
    rw [Finset.prod_congr rfl fun i _ => hm i, Finset.prod_univ_sum]
    refine Finset.sum_congr rfl fun e _ => ?_
    rw [hlist]
    exact Finset.prod_congr rfl fun i _ => by rw [hg e i i.2]
  · intro e he e' he' hne'
    refine Set.disjoint_left.2 fun x hx hx' => hne' ?_
    have h1 := hx.2.symm.trans hx'.2
    injection h1 with h1
    rw [frame_inj] at h1
    funext i v
    by_cases hv : v ∈ hid
    · have := h1 i i.2 v ((hmem v).2 ((hhid v).1 hv).1)
      rwa [hg e i i.2, hg e' i i.2] at this
    · rw [((hE e).1 he i).1 v hv, ((hE e').1 he' i).1 v hv]
  · intro e he
    rw [C92_box hr hB hn hnn hn1 hne ho (hin e he)]
    exact MeasurableSet.univ_pi fun k => measurableSet_Ico

/-- **C96** the sampled endogenous variables: for draws that are uniform and independent, the records are independent and each has the
distribution of the endogenous variables in the model. -/
theorem C96_distribution {m : SCM (storeOf vt : StoreImpl V S (Fl ℝ)) (labelStoreOf vt : LabelStore V S)} {B : BN V S ℝ} (h : m.Rep B)
    (hB : B.Valid) (hn : B.Normalised) (hnn : B.NonNeg) {n : Nat} (hn1 : 1 ≤ n) (hne : B.nodes ≠ [])
    (hd : ∀ v ∈ B.nodes, ∀ f, Dict.get? m.base.factors v = some (some f) → f.isDet = false) (hend : ∀ v ∈ m.endogenous, v ∈ B.nodes)
    {order : List V} (ho : TopoOrder m.base.graph order) {a : Nat → V → S} (ha : ∀ i < n, ∀ v ∈ m.endogenous, a i v ∈ B.states v) :
    volume {x : UnitDraws B n | (∀ k, x k ∈ Set.Ico (0 : ℝ) 1) ∧ m.sampleEndogenous order n x.at true = .ok (frame m.endogenous n a)} =
      ENNReal.ofReal ((List.range n).map fun i => B.marg m.endogenous (a i)).prod := by
  have hr := h.represents fun v f hf => hd v (by rw [← h.nodes, ← h.keys]; exact Dict.get?_isSome.1 (by rw [hf]; rfl)) f hf
  exact C96_columns hr hB hn hnn hn1 hne ho hend ha

end

/-! ### An example -/

section
variable {V S K : Type} [DecidableEq V] [DecidableEq S] [Inhabited S] [Field K] [LinearOrder K]

/-- Every network in which the variables with parents are functions of them is a causal model of multinomial factors. -/
theorem C93_causal (vt : VType) {B : BN V S K} (hB : B.Valid) (hf : Functional B) :
    ∃ (l : List (V × AnyFactor (storeOf vt : StoreImpl V S (Fl K)) (labelStoreOf vt : LabelStore V S))) (m : SCM (storeOf vt) (labelStoreOf vt)),
      SCM.ofDict (graphOf B) (l.map fun p => (p.1, some p.2)) none true true = .ok m ∧ m.Rep B ∧ m.base.graph = graphOf B ∧
      m.endogenous = SCM.defaultEndo (graphOf B) ∧ (∀ v, v ∈ m.endogenous ↔ v ∈ B.nodes ∧ B.parents v ≠ []) ∧
      ∀ v ∈ B.nodes, ∀ f, Dict.get? m.base.factors v = some (some f) → f.isDet = false := by
  obtain ⟨b, _, hg, hr⟩ := C93_exists vt hB
  haveI : Nonempty (Factor (storeOf vt : StoreImpl V S (Fl K))) := by
    obtain ⟨f, _⟩ := Factor.make_ok (storeOf_lawful (V := V) (S := S) (α := Fl K) vt) (d := []) (values := [default]) (left := none)
      (right := none) ⟨by simp, by simp, by simp⟩ rfl rfl
    exact ⟨f⟩
  choose! f g h1 h2 h3 using hr.table
  have hgw : (graphOf B).WF := hg ▸ hr.wf
  have hgn : (graphOf B).nodes = B.nodes := hg ▸ hr.nodes
  have hgp : ∀ v ∈ B.nodes, ∀ p, p ∈ B.parents v ↔ (p, v) ∈ (graphOf B).edges := hg ▸ hr.parents
  let l : List (V × AnyFactor (storeOf vt : StoreImpl V S (Fl K)) (labelStoreOf vt : LabelStore V S)) := B.nodes.map fun v => (v, .multi (g v))
  have hk : Dict.keys l = B.nodes := by simp [l, Dict.keys, Function.comp_def]
  have hde : ∀ v, v ∈ SCM.endoOr (graphOf B) none ↔ v ∈ B.nodes ∧ B.parents v ≠ [] := by
    intro v
    refine (SCM.mem_defaultEndo hgw).trans ⟨fun ⟨p, hp⟩ => ?_, fun ⟨hv, hp⟩ => ?_⟩
    · have hv : v ∈ B.nodes := by rw [← hgn]; exact (hgw.ends _ hp).2
      exact ⟨hv, List.ne_nil_of_mem ((hgp v hv p).2 hp)⟩
    · obtain ⟨p, hp⟩ := List.exists_mem_of_ne_nil _ hp
      exact ⟨p, (hgp v hv p).1 hp⟩
  obtain ⟨k1, _, k3⟩ := SCM.rep_built hB hgw hgn hgp (l := l) (by rw [hk]) (fun p hp => by
    obtain ⟨v, hv, rfl⟩ := List.mem_map.1 hp
    exact h3 v hv) none true true (fun v hv hvn => hf v hvn ((hde v).1 hv).2) rfl
  refine ⟨l, _, k1, k3, rfl, rfl, hde, fun v hv f' hf' => ?_⟩
  have hl : (l.map fun p => (p.1, SCM.prep (SCM.endoOr (graphOf B) none) true true p.1 p.2)) = l := by
    conv_rhs => rw [← List.map_id l]
    refine List.map_congr_left fun p hp => ?_
    obtain ⟨v, _, rfl⟩ := List.mem_map.1 hp
    rw [SCM.prep_self (f := (.multi (g v) : AnyFactor (storeOf vt : StoreImpl V S (Fl K)) (labelStoreOf vt : LabelStore V S))) rfl]; rfl
  have : Dict.get? (DagModel.after (graphOf B) B.states true l).factors v = some (some f') := by rw [← hl]; exact hf'
  have hv' : Dict.get? (DagModel.after (graphOf B) B.states true l).factors v = some (Dict.get? l v) := by
    show Dict.get? ((graphOf B).nodes.map fun w => (w, Dict.get? l w)) v = _
    rw [Dict.get?_map, if_pos (by rw [hgn]; exact hv)]
  rw [hv', Dict.get?_of_mem (by rw [hk]; exact hB.nodes) (show (v, .multi (g v)) ∈ l from List.mem_map.2 ⟨v, hv, rfl⟩)] at this
  injection this with this
  injection this with this
  rw [← this]; rfl

end

/-- A network over any field: a root that is `true` with probability `1/3` and a variable equal to it. -/
def copyNet (K : Type) [Field K] : BN Bool Bool K where
  nodes := [false, true]
  parents v := if v then [false] else []
  states _ := [false, true]
  table v a := if v then (if a false = a true then 1 else 0) else if a false then 1 / 3 else 2 / 3

theorem copyNet_valid (K : Type) [Field K] : (copyNet K).Valid where
  nodes := (pairNet_valid K).nodes
  parents := (pairNet_valid K).parents
  acyclic := (pairNet_valid K).acyclic
  nodupStates := (pairNet_valid K).nodupStates
  nonempty := (pairNet_valid K).nonempty
  scope v _ a b h := by
    cases v
    · have := h false (by simp); simp [copyNet, this]
    · have h1 := h false (by simp [copyNet]); have h2 := h true (by simp); simp [copyNet, h1, h2]

theorem copyNet_normalised (K : Type) [Field K] [LinearOrder K] [IsStrictOrderedRing K] : (copyNet K).Normalised := by
  intro v _ a _
  cases v
  · simp [copyNet, upd]; norm_num
  · cases h : a false <;> simp [copyNet, upd, h]

theorem copyNet_nonneg (K : Type) [Field K] [LinearOrder K] [IsStrictOrderedRing K] : (copyNet K).NonNeg := by
  intro v _ a _
  simp only [copyNet]
  split_ifs <;> norm_num

theorem copyNet_functional (K : Type) [Field K] : Functional (copyNet K) := by
  intro v _ hp a _
  cases v
  · simp [copyNet] at hp
  · simp only [copyNet, if_true]; split_ifs <;> simp

/-- A model of two variables: the draws for two records in which the endogenous variable is `true` and then `false` have volume two
ninths. -/
theorem C96_example (vt : VType) : ∃ m : SCM (storeOf vt : StoreImpl Bool Bool (Fl ℝ)) (labelStoreOf vt : LabelStore Bool Bool),
    m.Rep (copyNet ℝ) ∧ m.endogenous = [true] ∧
    MeasureTheory.volume {x : UnitDraws (copyNet ℝ) 2 | (∀ k, x k ∈ Set.Ico (0 : ℝ) 1) ∧
      m.sampleEndogenous [false, true] 2 x.at true = .ok [[(true, true)], [(true, false)]]} = ENNReal.ofReal (2 / 9) := by
  obtain ⟨l, m, _, h1, h2, h0, h3, h4⟩ := C93_causal vt (copyNet_valid ℝ) (copyNet_functional ℝ)
  have hg : graphOf (copyNet ℝ) = ⟨[false, true], [(false, true)]⟩ := by simp [graphOf, copyNet]
  have he : m.endogenous = [true] := by
    rw [h0, hg]; decide
  refine ⟨m, h1, he, ?_⟩
  have := C96_distribution h1 (copyNet_valid ℝ) (copyNet_normalised ℝ) (copyNet_nonneg ℝ) (n := 2) (by norm_num) (by simp [copyNet]) h4
    (fun v hv => ((h3 v).1 hv).1) (order := [false, true]) (by rw [h2, hg]; exact pairNet_topo)
    (a := fun i _ => i == 0) (by intro i _ v _; cases i <;> simp [copyNet])
  rw [he] at this
  have e1 : (copyNet ℝ).marg [true] (fun _ => true) = 1 / 3 := by
    simp [BN.marg, BN.joint, copyNet, sumOver, upd]
  have e2 : (copyNet ℝ).marg [true] (fun _ => false) = 2 / 3 := by
    simp [BN.marg, BN.joint, copyNet, sumOver, upd]
  have e3 : ((List.range 2).map fun i => (copyNet ℝ).marg [true] (fun _ => i == 0)).prod = 2 / 9 := by
    have : ((List.range 2).map fun i => (copyNet ℝ).marg [true] (fun _ => i == 0)) =
        [(copyNet ℝ).marg [true] (fun _ => true), (copyNet ℝ).marg [true] (fun _ => false)] := rfl
    rw [this, e1, e2]; norm_num
  rw [e3] at this
  exact this

/-- The same model with its equations as deterministic factors, and as multinomial ones. -/
theorem C96_det_example (vt : VType) :
    (do let m ← exScm vt none false
        m.sampleEndogenous [sU, sW, sX, sY, sZ] 2 (fun _ _ => 1 / 2) true) = .error .typeError ∧
    (do let m ← exScm vt none true
        m.sampleEndogenous [sU, sW, sX, sY, sZ] 1 (fun _ _ => 1 / 2) true) = .ok [[(sX, '1'), (sY, '0'), (sZ, '1')]] ∧
    (do let m ← exScm vt none true
        m.sampleEndogenous [sU, sW, sX, sY, sZ] 1 (fun _ _ => 1 / 2) false) = .error .typeError := by
  cases vt <;> decide +kernel

end Verif.Props
