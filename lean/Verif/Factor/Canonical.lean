import Verif.Factor.Deterministic
import Mathlib.Tactic.Linarith

/-!
# `to_deterministic` and `canonical_deterministic`
-/

set_option linter.unusedSectionVars false
set_option linter.unusedSimpArgs false

namespace Verif

variable {V S α : Type} [DecidableEq V] [DecidableEq S]

/-- Position of the first largest element, `np.argmax`. -/
def argmaxList [LinearOrder α] : List α → Nat
  | [] => 0
  | x :: xs =>
    (xs.foldl (fun (st : Nat × Nat × α) y => if st.2.2 < y then (st.1 + 1, st.1, y) else (st.1 + 1, st.2.1, st.2.2))
      (1, 0, x)).2.1

/-- `mulitnomial.py:43-50` `to_deterministic`: the values are the *positions* of the maximum, as
numpy integers; `ofNat` gives the state an integer is equal to, `arg` is `np.argmax`.  The new factor uses the default
store. -/
def Factor.toDeterministicWith [Inhabited α] [Inhabited S] {I : StoreImpl V S α} (arg : List α → Nat) (ofNat : Nat → S) (f : Factor I) :
    Py (DetFactor (labelStoreOf .numpy : LabelStore V S)) :=
  match f.leftVars with
  | [v] => do
    let arr ← f.valuesArray []
    let vals := arr.reduceAxes (fun l => ofNat (arg l)) [f.vars.idxOf v]
    DetFactor.make (labelStoreOf .numpy) f.dom vals (some [v]) none
  | _ => .error .valueError

/-- `to_deterministic` for numbers in a linear order -/
def Factor.toDeterministic [Inhabited α] [Inhabited S] [LinearOrder α] {I : StoreImpl V S α} (ofNat : Nat → S) (f : Factor I) :
    Py (DetFactor (labelStoreOf .numpy : LabelStore V S)) := f.toDeterministicWith argmaxList ofNat

/-- `domainutils.py:87-89` `subdomain` -/
def subdomain (d : Dom V S) (vs : List V) : Py (Dom V S) := vs.mapM fun v => do
  let s ← Dict.get d v
  return (v, s)

/-- `deterministic.py:132-147` `canonical_deterministic` -/
def canonicalDeterministic (L : LabelStore V S) (d : Dom V S) (exo : V) (rightEndo : List V) : Py (DetFactor L) :=
  match (Dict.keys d).filter fun v => v ∉ rightEndo ∧ v ≠ exo with
  | [x] => do
    let pd ← subdomain d rightEndo
    let m := (assignmentSpace pd).length
    let st ← Dict.get d x
    let rows := product (List.replicate m st)
    let ud ← subdomain d [exo]
    DetFactor.make L (Dict.merge (Dict.merge [(x, st)] ud) pd) ⟨[rows.length, m], rows.flatten⟩ (some [x]) none
  | _ => .error .valueError

/-! ### Lemmas -/

theorem argmaxList_spec_aux [LinearOrder α] (xs pre : List α) (i : Nat) (m : α) (hi : pre[i]? = some m)
    (hmax : ∀ y ∈ pre, y ≤ m) (hfirst : ∀ j, j < i → ∀ y, pre[j]? = some y → y < m) :
    let r := (xs.foldl (fun (st : Nat × Nat × α) y =>
        if st.2.2 < y then (st.1 + 1, st.1, y) else (st.1 + 1, st.2.1, st.2.2)) (pre.length, i, m)).2.1
    ∃ z, (pre ++ xs)[r]? = some z ∧ (∀ y ∈ pre ++ xs, y ≤ z) ∧ ∀ j, j < r → ∀ y, (pre ++ xs)[j]? = some y → y < z := by
  induction xs generalizing pre i m with
  | nil => exact ⟨m, by simpa using hi, by simpa using hmax, by simpa using hfirst⟩
  | cons x xs ih =>
    have e : pre ++ x :: xs = (pre ++ [x]) ++ xs := by simp
    have hil : i < pre.length := by
      by_contra h; rw [List.getElem?_eq_none (by omega)] at hi; cases hi
    simp only [List.foldl_cons, e]
    by_cases h : m < x
    · rw [if_pos h]
      have := ih (pre ++ [x]) pre.length x (by simp) (by
        intro y hy
        rcases List.mem_append.1 hy with hy | hy
        · exact (hmax y hy).trans h.le
        · simp at hy; rw [hy]) (by
        intro j hj y hy
        rw [List.getElem?_append_left hj] at hy
        exact lt_of_le_of_lt (hmax y (List.mem_of_getElem? hy)) h)
      simpa using this
    · rw [if_neg h]
      have := ih (pre ++ [x]) i m (by rw [List.getElem?_append_left hil]; exact hi) (by
        intro y hy
        rcases List.mem_append.1 hy with hy | hy
        · exact hmax y hy
        · simp at hy; rw [hy]; exact not_lt.1 h) (by
        intro j hj y hy
        rw [List.getElem?_append_left (by omega)] at hy
        exact hfirst j hj y hy)
      simpa using this

/-- `np.argmax` returns the first position of a largest element. -/
theorem argmaxList_spec [LinearOrder α] {l : List α} (h : l ≠ []) :
    ∃ z, l[argmaxList l]? = some z ∧ (∀ y ∈ l, y ≤ z) ∧ ∀ j, j < argmaxList l → ∀ y, l[j]? = some y → y < z := by
  cases l with
  | nil => exact absurd rfl h
  | cons x xs =>
    have := argmaxList_spec_aux xs [x] 0 x (by simp) (by simp) (by simp)
    simpa [argmaxList] using this

/-- The reduction of an array over some variables, in terms of assignments. -/
theorem reduceAxes_dom {β : Type} [Inhabited α] [Inhabited β] {d : Dom V S} (hd : DomOk d) {arr : NdArray α}
    (hs : arr.shape = cards d) (f : List α → β) {vars : List V} (hsub : ∀ v ∈ vars, v ∈ Dict.keys d) :
    let r := arr.reduceAxes f (vars.map fun v => (Dict.keys d).idxOf v)
    r.WF ∧ r.shape = cards (domOut d vars) ∧
      ∀ a, InDom (domOut d vars) a →
        r.get (coords (domOut d vars) a) = f ((variants (domIn d vars) a).map fun b => arr.get (coords d b)) := by
  have hsel : ∀ b, NdArray.sel b (d.map fun p => decide (p.1 ∈ vars)) (cards d)
      = cards (d.filter fun p => decide (p.1 ∈ vars) = b) := fun b =>
    NdArray.sel_map b _ _ _
  have ef : (d.filter fun p => decide (p.1 ∈ vars) = false) = domOut d vars := by
    unfold domOut; congr 1; funext p; simp
  have et : (d.filter fun p => decide (p.1 ∈ vars) = true) = domIn d vars := by
    unfold domIn; congr 1; funext p; simp
  have hred : arr.reduceAxes f (vars.map fun v => (Dict.keys d).idxOf v) =
      NdArray.build (cards (domOut d vars)) fun k =>
        f ((idxSpace (cards (domIn d vars))).map fun r =>
          arr.get (NdArray.weave (d.map fun p => decide (p.1 ∈ vars)) k r)) := by
    rw [NdArray.reduceAxes, hs, NumpyStore.mask_eq hd.keys hsub]
    simp only [hsel, ef, et]
  intro r
  have hr : r = _ := hred
  rw [hr]
  refine ⟨NdArray.wf_build _ _, rfl, ?_⟩
  intro a ha
  rw [NdArray.get_build _ (validIdx_coords ha), map_idxSpace_cards (hd.domIn vars) a]
  congr 1
  refine List.map_congr_left fun b hb => ?_
  congr 1
  have h1 : coords (domOut d vars) a = coords (domOut d vars) b := by
    refine coords_congr fun v hv => (variants_not_mem hb ?_).symm
    rw [keys_domIn]; rw [keys_domOut] at hv
    simp at hv ⊢; intro _; exact hv.2
  rw [h1, ← ef, ← et]
  exact NdArray.weave_filter _ _ _

theorem merge_disjoint {d1 d2 : Dom V S} (h : ∀ v ∈ Dict.keys d1, v ∉ Dict.keys d2) : Dict.merge d1 d2 = d1 ++ d2 := by
  rw [merge_eq_domUnion, domUnion]
  · congr 1
    rw [List.filter_eq_self]
    intro p hp
    have : p.1 ∉ Dict.keys d1 := fun hk => h _ hk (Dict.mem_keys_of_mem hp)
    simpa using this
  · intro p hp q hq e
    exact absurd (e ▸ Dict.mem_keys_of_mem hq) (h _ (Dict.mem_keys_of_mem hp))

theorem subdomain_ok {d : Dom V S} {vs : List V} (h : ∀ v ∈ vs, v ∈ Dict.keys d) :
    ∃ r, subdomain d vs = .ok r ∧ Dict.keys r = vs ∧ ∀ p ∈ r, p ∈ d := by
  refine ⟨vs.map fun v => (v, (Dict.get? d v).getD []), ?_, by simp [Dict.keys, Function.comp_def], ?_⟩
  · refine mapM_ok fun v hv => ?_
    rcases hg : Dict.get? d v with _ | st
    · exact absurd (h v hv) (Dict.get?_eq_none.1 hg)
    · simp [Dict.get, hg]
  · intro p hp
    obtain ⟨v, hv, rfl⟩ := List.mem_map.1 hp
    rcases hg : Dict.get? d v with _ | st
    · exact absurd (h v hv) (Dict.get?_eq_none.1 hg)
    · simpa using Dict.mem_of_get? hg

theorem getElem?_flatten_const {β : Type} {m : Nat} (rows : List (List β)) (h : ∀ r ∈ rows, r.length = m) (i j : Nat)
    (hj : j < m) : rows.flatten[m * i + j]? = (rows[i]?).bind (·[j]?) := by
  induction rows generalizing i with
  | nil => simp
  | cons r rows ih =>
    have hr := h r List.mem_cons_self
    cases i with
    | zero =>
      rw [List.flatten_cons, List.getElem?_append_left (by omega)]; simp
    | succ i =>
      rw [List.flatten_cons, List.getElem?_append_right (by rw [hr]; nlinarith), hr]
      have : m * (i + 1) + j - m = m * i + j := by rw [Nat.mul_succ]; omega
      rw [this, ih (fun r hr => h r (List.mem_cons_of_mem _ hr))]
      simp

theorem variants_singleton (x : V) (st : List S) (a : V → S) :
    variants [(x, st)] a = st.map fun s => upd a x s := by
  simp only [variants]
  induction st with
  | nil => rfl
  | cons s st ih => rw [List.flatMap_cons, ih]; rfl

/-- The largest element of an indicator list is at the position of the indicated element. -/
theorem argmax_indicator [Zero α] [One α] [LinearOrder α] (h01 : (0 : α) < 1) {st : List S} (hn : st.Nodup) {y : S}
    (hy : y ∈ st) : argmaxList (st.map fun s => if y = s then (1 : α) else 0) = st.idxOf y := by
  have hne : (st.map fun s => if y = s then (1 : α) else 0) ≠ [] := by
    intro h; rw [List.map_eq_nil_iff] at h; subst h; simp at hy
  obtain ⟨z, h1, h2, _⟩ := argmaxList_spec hne
  generalize argmaxList (st.map fun s => if y = s then (1 : α) else 0) = r at h1
  rw [List.getElem?_map, Option.map_eq_some_iff] at h1
  obtain ⟨t, ht, rfl⟩ := h1
  have h1 := h2 1 (List.mem_map.2 ⟨y, hy, by simp⟩)
  by_cases e : y = t
  · subst e
    obtain ⟨hr, hg⟩ := List.getElem?_eq_some_iff.1 ht
    rw [← hg, hn.idxOf_getElem]
  · rw [if_neg e] at h1
    exact absurd h01 (not_lt.2 h1)

theorem sum_map_ite_eq [AddCommMonoid α] {st : List S} (h : st.Nodup) (y : S) (c : α) :
    (st.map fun s => if y = s then c else 0).sum = if y ∈ st then c else 0 := by
  induction st with
  | nil => simp
  | cons s st ih =>
    rw [List.nodup_cons] at h
    rw [List.map_cons, List.sum_cons, ih h.2]
    by_cases e : y = s
    · subst e; simp [h.1]
    · simp [e]

/-- A left variable that is alone. -/
theorem left_singleton_domain {d : Dom V S} (hd : DomOk d) {r : List V} {x : V}
    (hx : ((Dict.keys d).filter fun v => v ∉ r) = [x]) : (d.filter fun p => p.1 ∈ r) = domOut d [x] := by
  unfold domOut
  refine List.filter_congr fun p hp => ?_
  have hk := Dict.mem_keys_of_mem hp
  have : p.1 ∉ r ↔ p.1 = x := by
    have h1 : p.1 ∈ ((Dict.keys d).filter fun v => v ∉ r) ↔ p.1 ∈ [x] := by rw [hx]
    simpa [hk] using h1
  by_cases h : p.1 ∈ r
  · have : p.1 ≠ x := fun e => (this.2 e) h
    simp [h, this]
  · have e := this.1 h
    rw [e] at h
    simp [e, h]

theorem domIn_singleton {d : Dom V S} (hd : (Dict.keys d).Nodup) {x : V} {st : List S} (h : (x, st) ∈ d) :
    domIn d [x] = [(x, st)] := by
  have h1 : (domIn d [x]).Nodup := (hd.of_map _).filter _
  refine List.Perm.eq_singleton ((List.perm_ext_iff_of_nodup h1 (by simp)).2 fun p => ?_)
  simp only [domIn, List.mem_filter, List.mem_singleton, decide_eq_true_eq]
  constructor
  · rintro ⟨hp, e⟩
    have e1 : Dict.get? d p.1 = some p.2 := Dict.get?_of_mem hd hp
    have e2 : Dict.get? d x = some st := Dict.get?_of_mem hd h
    rw [e, e2] at e1
    exact Prod.ext e (Option.some.inj e1).symm
  · rintro rfl; exact ⟨h, rfl⟩

end Verif
