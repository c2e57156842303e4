import Verif.Util.Normalize
import Verif.Inference.QueryLemmas
import Verif.Net.CfProb

/-!
# Lemmas for the normalisation of tables
-/

set_option linter.unusedSectionVars false
set_option linter.unusedSimpArgs false

namespace Verif

variable {V S K : Type} [DecidableEq V] [DecidableEq S] [Field K] [LinearOrder K]

theorem leftDims_pairs (d : Dom V S) (right : List V) :
    List.Forall₂ (fun i p => d[i]? = some p) (leftDims d right) (domOut d right) := by
  have h1 : leftDims d right = (d.zipIdx.filter fun q => q.1.1 ∉ right).map (·.2) := by
    rw [leftDims, Dict.keys, List.zipIdx_map, List.filter_map, List.map_map]
    rfl
  have h2 : domOut d right = (d.zipIdx.filter fun q => q.1.1 ∉ right).map (·.1) := by
    conv_lhs => rw [domOut, ← List.zipIdx_map_fst (l := d) (i := 0), List.filter_map]
    rfl
  rw [h1, h2, List.forall₂_map_left_iff, List.forall₂_map_right_iff, List.forall₂_same]
  intro q hq
  exact List.mem_zipIdx_iff_getElem?.1 (List.mem_filter.1 hq).1

/-- States of a variable in a domain. -/
def domStates (d : Dom V S) (v : V) : List S := (Dict.get? d v).getD []

theorem domStates_of_mem {d : Dom V S} (hd : (Dict.keys d).Nodup) {p : V × List S} (hp : p ∈ d) : domStates d p.1 = p.2 := by
  rw [domStates, Dict.get?_of_mem hd (show (p.1, p.2) ∈ d from hp)]; rfl

theorem sumStates_reverse {d : Dom V S} (hd : (Dict.keys d).Nodup) (right : List V) (φ : (V → S) → K) (a : V → S) :
    sumStates φ (domOut d right).reverse a = sumOver (domStates d) ((Dict.keys d).filter (· ∉ right)) φ a := by
  have hn : ((Dict.keys d).filter (· ∉ right)).Nodup := hd.filter _
  rw [sumOver_perm (List.reverse_perm _).symm hn, sumOver_eq_sumStates]
  congr 1
  rw [← keys_domOut, Dict.keys, ← List.map_reverse, List.map_map]
  conv_lhs => rw [← List.map_id (domOut d right).reverse]
  refine List.map_congr_left fun p hp => ?_
  have : p ∈ d := (List.mem_filter.1 (List.mem_reverse.1 hp)).1
  simp [domStates_of_mem hd this]

/-- Dividing by the sums makes the sums one. -/
theorem sum_quotients {D : V → List S} {φ : (V → S) → K} {vs xs : List V} (hφ : DependsOn φ vs) {a : V → S}
    (h : sumOver D xs φ a ≠ 0) : sumOver D xs (fun b => φ b / sumOver D xs φ b) a = 1 := by
  have hT : DependsOn (fun b => (sumOver D xs φ b)⁻¹) (vs.filter (· ∉ xs)) := fun b c hbc => by
    show (sumOver D xs φ b)⁻¹ = (sumOver D xs φ c)⁻¹
    rw [hφ.sumOver xs b c hbc]
  simp only [div_eq_mul_inv]
  rw [sumOver_mul_right hT (fun v hv hm => by simpa [hv] using (List.mem_filter.1 hm).2)]
  exact mul_inv_cancel₀ h

/-- The cell of a flat row-major table at an assignment. -/
def cellAt (d : Dom V S) (t : List K) (a : V → S) : K := t.getD (ravel (cards d) (coords d a)) 0

theorem cellAt_dep (d : Dom V S) (t : List K) : DependsOn (cellAt d t) (Dict.keys d) := fun a b h => by
  rw [cellAt, cellAt, coords_congr h]

theorem ravel_coords_lt {d : Dom V S} {a : V → S} (ha : InDom d a) {t : List K} (ht : t.length = (cards d).prod) :
    ravel (cards d) (coords d a) < t.length := ht ▸ ravel_lt (validIdx_coords ha)

theorem get_table {d : Dom V S} {t : List K} (ht : t.length = (cards d).prod) {a : V → S} (ha : InDom d a) :
    (⟨cards d, t.map Fl.fin⟩ : NdArray (Fl K)).get (coords d a) = .fin (cellAt d t a) := by
  have := ravel_coords_lt ha ht
  simp [NdArray.get, cellAt, List.getD_eq_getElem?_getD, List.getElem?_eq_getElem this]

/-- Building a factor from a table normalised over the variables that are not on the right. -/
theorem normalized_factor {I : StoreImpl V S (Fl K)} (hI : I.Lawful) {d : Dom V S} (hd : DomOk d) (right : List V) {t : List K}
    (ht : t.length = (cards d).prod)
    (hz : ∀ a, InDom d a → sumOver (domStates d) ((Dict.keys d).filter (· ∉ right)) (cellAt d t) a ≠ 0) :
    ∃ f, (do let data ← NdArray.normalizeArray ⟨cards d, t.map Fl.fin⟩ (leftDims d right)
             Factor.make I d data.flat none (some right)) = .ok f ∧ f.WF ∧ f.dom = d ∧ f.rightVars = right ∧
      ∀ a, InDom d a → f.sem a =
        .fin (cellAt d t a / sumOver (domStates d) ((Dict.keys d).filter (· ∉ right)) (cellAt d t) a) := by
  obtain ⟨c, c1, c2, c3, c4⟩ := NdArray.normalizeArray_ok hd.keys hd.states (leftDims_pairs d right)
    (by rw [keys_domOut]; exact hd.keys.filter _) (b := ⟨cards d, t.map Fl.fin⟩) rfl (fun a ha => get_table ht ha)
  obtain ⟨f, f1, f2, f3, f4, f5⟩ := Factor.make_ok hI (values := c.flat) (left := none) (right := some right) (r := right) hd
    (by rw [← c3]; exact c2) rfl
  refine ⟨f, by rw [c1]; exact f1, f2, f3, f4, fun a ha => ?_⟩
  have := c4 a ha
  rw [NdArray.get, c3] at this
  rw [f5 a ha, this, Factor.sumStates_fin (hI := hI), sumStates_reverse hd.keys, Fl.fin_div (hz a ha)]

end Verif
