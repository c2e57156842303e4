import Verif.Model.SamplingLemmas
import Verif.Model.Convert

/-!
# Sampling some columns (`cmodel.py:249-250`) and sampling models with deterministic factors
-/

set_option linter.unusedSectionVars false
set_option linter.unusedSimpArgs false

namespace Verif

section
variable {V S K : Type} [DecidableEq V] [DecidableEq S] [Inhabited S] [Field K] [LinearOrder K]
  {I : StoreImpl V S (Fl K)} {L : LabelStore V S}

/-- `data[cols]` for the records of a data frame (`cmodel.py:250`): `KeyError` when a column is missing. A data frame without
rows still knows its columns, which is not modelled. -/
def selectCols (cols : List V) (data : List (Obs V S)) : Py (List (Obs V S)) :=
  data.mapM fun r => cols.mapM fun v => do
    let s ← Dict.get r v
    return (v, s)

/-- `cmodel.py:249-250` `sampleEndogenous`, through `pgmodel.py:192-197` `sample`. `order` and `u` as in
`forwardSampling`. Without `as_pandas` the records are a list, which cannot be indexed by a list. -/
def SCM.sampleEndogenous (m : SCM I L) (order : List V) (n : Nat) (u : V → Nat → K) (asPandas : Bool) : Py (List (Obs V S)) := do
  let data ← forwardSampling m.base order n u
  if asPandas then selectCols m.endogenous data else .error .typeError

end

/-! ### Assignments that extend a given one -/

section
variable {V S : Type} [DecidableEq V] [DecidableEq S]

/-- The assignments that give the variables `xs` states of theirs and are `a` elsewhere. -/
def exts (D : V → List S) : List V → (V → S) → List (V → S)
  | [], a => [a]
  | x :: xs, a => (D x).flatMap fun s => exts D xs (upd a x s)

variable {D : V → List S}

theorem sumOver_exts {K : Type} [AddCommMonoid K] (xs : List V) (f : (V → S) → K) (a : V → S) :
    sumOver D xs f a = ((exts D xs a).map f).sum := by
  induction xs generalizing a with
  | nil => simp [sumOver, exts]
  | cons x xs ih =>
    rw [sumOver, exts, List.map_flatMap, List.flatMap, List.sum_flatten, List.map_map]
    exact congrArg List.sum (List.map_congr_left fun s _ => ih _)

theorem mem_exts {xs : List V} (hx : xs.Nodup) {a b : V → S} :
    b ∈ exts D xs a ↔ (∀ v, v ∉ xs → b v = a v) ∧ ∀ v ∈ xs, b v ∈ D v := by
  induction xs generalizing a with
  | nil => simp [exts, funext_iff]
  | cons x xs ih =>
    obtain ⟨hx1, hx2⟩ := List.nodup_cons.1 hx
    simp only [exts, List.mem_flatMap, ih hx2]
    constructor
    · rintro ⟨s, hs, h1, h2⟩
      have hbx : b x = s := by rw [h1 x hx1, upd_same]
      refine ⟨fun v hv => ?_, fun v hv => ?_⟩
      · rw [List.mem_cons, not_or] at hv
        rw [h1 v hv.2, upd_ne _ _ hv.1]
      · rcases List.mem_cons.1 hv with rfl | hv
        · rw [hbx]; exact hs
        · exact h2 v hv
    · rintro ⟨h1, h2⟩
      refine ⟨b x, h2 x List.mem_cons_self, fun v hv => ?_, fun v hv => h2 v (List.mem_cons_of_mem _ hv)⟩
      by_cases hvx : v = x
      · subst hvx; rw [upd_same]
      · rw [upd_ne _ _ hvx]; exact h1 v (by simp [hvx, hv])

theorem nodup_exts {xs : List V} (hx : xs.Nodup) (hD : ∀ v ∈ xs, (D v).Nodup) (a : V → S) : (exts D xs a).Nodup := by
  induction xs generalizing a with
  | nil => simp [exts]
  | cons x xs ih =>
    obtain ⟨hx1, hx2⟩ := List.nodup_cons.1 hx
    rw [exts, List.nodup_flatMap]
    refine ⟨fun s _ => ih hx2 (fun v hv => hD v (List.mem_cons_of_mem _ hv)) _, ?_⟩
    refine (hD x List.mem_cons_self).imp fun {s t} hst => ?_
    intro b hb hb'
    have h1 := ((mem_exts hx2).1 hb).1 x hx1
    have h2 := ((mem_exts hx2).1 hb').1 x hx1
    rw [upd_same] at h1 h2
    exact hst (h1.symm.trans h2)

end

/-! ### Deterministic factors -/

section
variable {V S K : Type} [DecidableEq V] [DecidableEq S] [Inhabited S] [Field K] [LinearOrder K] [IsStrictOrderedRing K] {vt : VType}

local notation "II" => (storeOf vt : StoreImpl V S (Fl K))
local notation "LL" => (labelStoreOf vt : LabelStore V S)

theorem sampleNode_congr {F : Type} [VEFactor F II] {m b : DagModel F V S} (hg : b.graph = m.graph) {v : V}
    (hf : Dict.get? b.factors v = Dict.get? m.factors v) (n : Nat) (u : V → Nat → K) (data : List (Obs V S)) :
    sampleNode m n u data v = sampleNode b n u data v := by
  have h1 : m.getParents [v] = b.getParents [v] := by simp only [DagModel.getParents, hg]
  simp only [sampleNode, h1, Dict.get, hf]

/-- Sampling reaches the first deterministic factor and fails there. -/
theorem SCM.Rep.sampling_det {m : SCM II LL} {B : BN V S K} (h : m.Rep B) (hB : B.Valid) (hn : B.Normalised) (hnn : B.NonNeg)
    {n : Nat} (hn1 : 1 ≤ n) {u : V → Nat → K} (hu : ∀ v i, 0 ≤ u v i ∧ u v i < 1) {order : List V} (ho : TopoOrder m.base.graph order)
    (hd : ∃ v ∈ B.nodes, ∃ f, Dict.get? m.base.factors v = some (some f) ∧ f.isDet = true) :
    forwardSampling (I := II) m.base order n u = .error .typeError := by
  obtain ⟨b, _, hbg, hb, hbf⟩ := h.causalToBnet hB
  have hob : TopoOrder b.graph order := by rw [hbg]; exact ho
  have hmem : ∀ v, v ∈ order ↔ v ∈ B.nodes := fun v => by rw [ho.perm.mem_iff, h.nodes]
  have key : ∀ (post pre : List V) (data : List (Obs V S)), order = pre ++ post → (recsOf n data).length = n → (data = [] → pre = []) →
      (∀ i (h : i < (recsOf n data).length), RecOk B (u · i) pre (recsOf n data)[i]) →
      (∃ v ∈ post, ∃ f, Dict.get? m.base.factors v = some (some f) ∧ f.isDet = true) →
      post.foldlM (sampleNode (I := II) m.base n u) data = .error .typeError := by
    intro post
    induction post with
    | nil => rintro _ _ _ _ _ _ ⟨v, hv, _⟩; simp at hv
    | cons v post ih =>
      rintro pre data e h1 h2 h3 ⟨w, hw, fw, hw1, hw2⟩
      have hnodup : order.Nodup := ho.perm.nodup_iff.2 h.wf.nodes
      have hv : v ∈ B.nodes := (hmem v).1 (by rw [e]; simp)
      have hvp : v ∉ pre := by
        rw [e] at hnodup
        intro hm
        exact (List.nodup_append'.1 hnodup).2.2 hm List.mem_cons_self
      have hpa : ∀ p ∈ B.parents v, p ∈ pre := fun p hp => ho.sorted pre v post e p ((h.parents v hv p).1 hp)
      have hdn : ∀ w ∈ pre, w ∈ B.nodes ∧ ∀ p ∈ B.parents w, p ∈ pre := by
        intro w hw
        have hwn := (hmem w).1 (by rw [e]; exact List.mem_append_left _ hw)
        refine ⟨hwn, fun p hp => ?_⟩
        obtain ⟨a, b, rfl⟩ := List.append_of_mem hw
        have := ho.sorted a w (b ++ v :: post) (by rw [e]; simp) p ((h.parents w hwn p).1 hp)
        exact List.mem_append_left _ this
      obtain ⟨f, hf, _⟩ := h.table v hv
      rw [List.foldlM_cons]
      cases f with
      | det g =>
        obtain ⟨pa, hp1, _⟩ := getParents_one (m := m.base) (v := v) (by rw [h.nodes]; exact hv)
        have : sampleNode (I := II) m.base n u data v = .error .typeError := by
          rw [sampleNode, hp1, py_ok_bind, Dict.get, hf]
          rfl
        rw [this]; rfl
      | multi g =>
        obtain ⟨d, d1, d2, d3⟩ := sampleNode_ok (storeOf_lawful vt) hb hB hn hnn hn1 hu hdn h1 h2 h3 hv hvp hpa
        have hdne : d ≠ [] := fun h => by rw [h] at d2; simp at d2; omega
        have hrd : recsOf n d = d := by rw [recsOf, if_neg hdne]
        rw [sampleNode_congr hbg (by rw [hbf v g hf, hf]), d1, py_ok_bind]
        refine ih (pre ++ [v]) d (by rw [e]; simp) (by rw [hrd]; exact d2) (fun h => absurd h hdne) (by simp only [hrd]; exact d3) ?_
        rcases List.mem_cons.1 hw with rfl | hw
        · rw [hf] at hw1; injection hw1 with hw1; injection hw1 with hw1; rw [← hw1] at hw2; cases hw2
        · exact ⟨w, hw, fw, hw1, hw2⟩
  obtain ⟨v, hv, f, h1, h2⟩ := hd
  exact key order [] [] rfl (by simp [recsOf]) (fun _ => rfl) (by
    intro i hi
    simp only [recsOf, if_true, List.getElem_replicate]
    exact ⟨rfl, by simp, by simp⟩) ⟨v, (hmem v).2 hv, f, h1, h2⟩

end

end Verif
