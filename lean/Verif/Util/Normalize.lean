import Verif.Factor.Rep

/-!
# Normalisation of arrays (`util/arrayutils.py:7-13`) and the factors built with it
(`factors/mulitnomial.py:217-234`)
-/

set_option linter.unusedSectionVars false
set_option linter.unusedSimpArgs false

namespace Verif

namespace NdArray

variable {α : Type} [Inhabited α]

/-- `a.sum(axis=i, keepdims=1)`; an axis that does not exist raises `AxisError`, a `ValueError`.
(Negative axes are not modelled.) -/
def sumKeep [AddCommMonoid α] (a : NdArray α) (i : Nat) : Py (NdArray α) :=
  if i < a.shape.length then
    .ok (build (a.shape.set i 1) fun idx =>
      ((List.range (a.shape.getD i 0)).map fun j => a.get (idx.set i j)).sum)
  else .error .valueError

/-- `util/arrayutils.py:7-13` `normalize_array` -/
def normalizeArray [AddCommMonoid α] [Div α] (data : NdArray α) (axis : List Nat) : Py (NdArray α) := do
  let sums ← axis.foldlM sumKeep data
  zipWithB (· / ·) data sums

end NdArray

variable {V S K : Type} [DecidableEq V] [DecidableEq S] [Field K] [LinearOrder K]

/-- `mulitnomial.py:220` and `:232`: positions of the variables that are not on the right -/
def leftDims (d : Dom V S) (right : List V) : List Nat :=
  ((Dict.keys d).zipIdx.filter fun p => p.1 ∉ right).map (·.2)

/-- `mulitnomial.py:217-226` `random_multinomial`.  `draws` is what the generator returned:
`np.random.uniform(0,1,…)`, or `np.random.uniform(-1,0,…)` when zeros are not allowed. -/
def randomMultinomial (I : StoreImpl V S (Fl K)) (d : Dom V S) (right : Option (List V))
    (allowZero : Bool) (draws : NdArray (Fl K)) : Py (Factor I) := do
  let right := right.getD []
  let data ← NdArray.normalizeArray (if allowZero then draws else ⟨draws.shape, draws.flat.map (.fin (-1) * ·)⟩)
    (leftDims d right)
  Factor.make I d data.flat none (some right)

/-- `mulitnomial.py:229-234` `uniform_multinomial` -/
def uniformMultinomial (I : StoreImpl V S (Fl K)) (d : Dom V S) (right : Option (List V)) : Py (Factor I) := do
  let right := right.getD []
  let data ← NdArray.normalizeArray ⟨cards d, List.replicate (cards d).prod (.fin 1)⟩ (leftDims d right)
  Factor.make I d data.flat none (some right)

/-! ### Lemmas -/

namespace NdArray

variable {α : Type} [Inhabited α]

/-- Shape of the sums over the variables `A`. -/
def shapeK (d : Dom V S) (A : List V) : List Nat := d.map fun p => if p.1 ∈ A then 1 else p.2.length
/-- Position of an assignment in the sums over the variables `A`. -/
def cidx (d : Dom V S) (A : List V) (a : V → S) : List Nat :=
  d.map fun p => if p.1 ∈ A then 0 else p.2.idxOf (a p.1)

theorem shapeK_nil (d : Dom V S) : shapeK d [] = cards d := by simp [shapeK, cards]
theorem cidx_nil (d : Dom V S) (a : V → S) : cidx d [] a = coords d a := by simp [cidx, coords]

theorem valid_cidx {d : Dom V S} (A : List V) {a : V → S} (ha : InDom d a) : ValidIdx (shapeK d A) (cidx d A a) := by
  simp only [ValidIdx, shapeK, cidx, List.forall₂_map_left_iff, List.forall₂_map_right_iff, List.forall₂_same]
  intro p hp
  split
  · omega
  · exact List.idxOf_lt_length_of_mem (ha p hp)

theorem map_set_key {β : Type} {d : Dom V S} (hd : (Dict.keys d).Nodup) {i : Nat} {p : V × List S} (hp : d[i]? = some p)
    (g : V × List S → β) (x : β) : (d.map g).set i x = d.map fun q => if q.1 = p.1 then x else g q := by
  induction d generalizing i with
  | nil => simp at hp
  | cons q d ih =>
    have hn := List.nodup_cons.1 (by simpa using hd : (q.1 :: Dict.keys d).Nodup)
    cases i with
    | zero =>
      simp only [List.getElem?_cons_zero, Option.some.injEq] at hp
      subst hp
      simp only [List.map_cons, List.set_cons_zero, if_true, List.cons.injEq, true_and]
      refine List.map_congr_left fun r hr => ?_
      rw [if_neg]
      intro e
      exact hn.1 (e ▸ Dict.mem_keys_of_mem hr)
    | succ i =>
      simp only [List.getElem?_cons_succ] at hp
      simp only [List.map_cons, List.set_cons_succ, ih hn.2 hp, List.cons.injEq, and_true]
      rw [if_neg]
      intro e
      exact hn.1 (e ▸ Dict.mem_keys_of_mem (List.mem_of_getElem? hp))

theorem key_eq {d : Dom V S} (hd : (Dict.keys d).Nodup) {p q : V × List S} (hp : p ∈ d) (hq : q ∈ d) (e : p.1 = q.1) : p = q := by
  have h1 := Dict.get?_of_mem hd (show (p.1, p.2) ∈ d from hp)
  have h2 := Dict.get?_of_mem hd (show (q.1, q.2) ∈ d from hq)
  rw [e, h2] at h1
  exact Prod.ext e (Option.some.inj h1).symm

theorem sum_range_states {β : Type} [AddCommMonoid β] (l : List S) (hl : l.Nodup) (g : Nat → β) (f : S → β)
    (h : ∀ s ∈ l, g (l.idxOf s) = f s) : ((List.range l.length).map g).sum = (l.map f).sum := by
  congr 1
  refine List.ext_getElem (by simp) fun i h1 h2 => ?_
  simp only [List.getElem_map, List.getElem_range]
  have hi : i < l.length := by simpa using h1
  rw [← h _ (List.getElem_mem hi), List.Nodup.idxOf_getElem hl i hi]

/-- One sum with the axis kept. -/
theorem sumKeep_ok [AddCommMonoid α] {d : Dom V S} (hd : (Dict.keys d).Nodup) (hs : ∀ p ∈ d, p.2.Nodup) {A : List V}
    {b : NdArray α} {F : (V → S) → α} (hsh : b.shape = shapeK d A) (hF : ∀ a, InDom d a → b.get (cidx d A a) = F a)
    {i : Nat} {p : V × List S} (hp : d[i]? = some p) (hA : p.1 ∉ A) :
    ∃ c, sumKeep b i = .ok c ∧ c.WF ∧ c.shape = shapeK d (p.1 :: A) ∧
      ∀ a, InDom d a → c.get (cidx d (p.1 :: A) a) = (p.2.map fun s => F (upd a p.1 s)).sum := by
  have hpm : p ∈ d := List.mem_of_getElem? hp
  have hi : i < d.length := (List.getElem?_eq_some_iff.1 hp).1
  have hshape : b.shape.set i 1 = shapeK d (p.1 :: A) := by
    rw [hsh, shapeK, map_set_key hd hp]
    refine List.map_congr_left fun q hq => ?_
    by_cases e : q.1 = p.1 <;> simp [e]
  refine ⟨_, by rw [sumKeep, if_pos (by rw [hsh]; simpa [shapeK] using hi)], wf_build _ _, by rw [shape_build, hshape], fun a ha => ?_⟩
  rw [hshape, get_build _ (valid_cidx _ ha)]
  have hlen : b.shape.getD i 0 = p.2.length := by
    rw [hsh, shapeK, List.getD_eq_getElem?_getD, List.getElem?_map, hp]
    simp [hA]
  rw [hlen]
  refine sum_range_states p.2 (hs p hpm) _ _ fun s hsm => ?_
  have hin : InDom d (upd a p.1 s) := by
    intro q hq
    by_cases e : q.1 = p.1
    · rw [key_eq hd hq hpm e, upd_same]; exact hsm
    · rw [upd_ne _ _ e]; exact ha q hq
  rw [← hF _ hin]
  congr 1
  rw [cidx, map_set_key hd hp, cidx]
  refine List.map_congr_left fun q hq => ?_
  by_cases e : q.1 = p.1
  · have := key_eq hd hq hpm e
    subst this
    simp [hA]
  · simp [e, upd_ne]

/-- All sums, one axis after another. -/
theorem foldlM_sumKeep_ok [AddCommMonoid α] {d : Dom V S} (hd : (Dict.keys d).Nodup) (hs : ∀ p ∈ d, p.2.Nodup) :
    ∀ (ps : List (V × List S)) (axes : List Nat), List.Forall₂ (fun i p => d[i]? = some p) axes ps →
    (Dict.keys ps).Nodup → ∀ {A : List V}, (∀ v ∈ A, v ∉ Dict.keys ps) → ∀ {b : NdArray α} {F : (V → S) → α},
    b.shape = shapeK d A → (∀ a, InDom d a → b.get (cidx d A a) = F a) →
    ∃ c, axes.foldlM sumKeep b = .ok c ∧ c.shape = shapeK d ((Dict.keys ps).reverse ++ A) ∧
      ∀ a, InDom d a → c.get (cidx d ((Dict.keys ps).reverse ++ A) a) = sumStates F ps.reverse a := by
  intro ps axes h
  induction h with
  | nil => intro _ A _ b F h1 h2; exact ⟨b, rfl, by simpa using h1, by simpa [sumStates] using h2⟩
  | @cons i p axes ps hp hrest ih =>
    intro hn A hA b F h1 h2
    have hn' := List.nodup_cons.1 (by simpa using hn : (p.1 :: Dict.keys ps).Nodup)
    have hAp : p.1 ∉ A := fun hm => hA _ hm (by simp)
    obtain ⟨c, c1, _, c3, c4⟩ := sumKeep_ok hd hs h1 h2 hp hAp
    obtain ⟨e, e1, e2, e3⟩ := ih hn'.2 (A := p.1 :: A) (by
      intro v hv
      rcases List.mem_cons.1 hv with rfl | hv
      · exact hn'.1
      · intro hm; exact hA _ hv (by simp [hm])) c3 c4
    refine ⟨e, by rw [List.foldlM_cons, c1]; exact e1, by simpa using e2, fun a ha => ?_⟩
    have := e3 a ha
    simp only [Dict.keys_cons, List.reverse_cons, List.append_assoc, List.singleton_append]
    rw [this]
    clear this e3
    have key : ∀ (l : Dom V S) (a : V → S), sumStates (fun a => (p.2.map fun s => F (upd a p.1 s)).sum) l a =
        sumStates F (l ++ [p]) a := by
      intro l
      induction l with
      | nil => intro a; rfl
      | cons q l ih => intro a; simp only [sumStates, List.cons_append, ih]
    exact key _ a

theorem bshape_shapeK (d : Dom V S) (A : List V) : bshape (cards d) (shapeK d A) = some (cards d) := by
  induction d with
  | nil => rfl
  | cons p d ih =>
    have hb : bdim p.2.length (if p.1 ∈ A then 1 else p.2.length) = some p.2.length := by
      by_cases h : p.1 ∈ A
      · rw [if_pos h]; by_cases h1 : p.2.length = 1 <;> simp [bdim, h1]
      · simp [h, bdim]
    have := ih
    unfold cards shapeK at this ⊢
    simp only [List.map_cons, bshape, this, hb]
    rfl

theorem clip_shapeK {d : Dom V S} (A : List V) {a : V → S} (ha : InDom d a) :
    clip (shapeK d A) (coords d a) = cidx d A a := by
  induction d with
  | nil => rfl
  | cons p d ih =>
    have := ih fun q hq => ha q (List.mem_cons_of_mem _ hq)
    have hp := List.idxOf_lt_length_of_mem (ha p List.mem_cons_self)
    unfold clip shapeK coords cidx at this ⊢
    simp only [List.map_cons, List.zipWith_cons_cons, this, List.cons.injEq, and_true]
    by_cases h : p.1 ∈ A
    · simp [h]
    · simp only [h, if_false]
      split
      · omega
      · rfl

/-- The normalised array holds the quotients by the sums over the chosen axes. -/
theorem normalizeArray_ok [AddCommMonoid α] [Div α] {d : Dom V S} (hd : (Dict.keys d).Nodup) (hs : ∀ p ∈ d, p.2.Nodup)
    {ps : List (V × List S)} {axes : List Nat} (hax : List.Forall₂ (fun i p => d[i]? = some p) axes ps)
    (hn : (Dict.keys ps).Nodup) {b : NdArray α} (hb : b.shape = cards d) {F : (V → S) → α}
    (hF : ∀ a, InDom d a → b.get (coords d a) = F a) :
    ∃ c, normalizeArray b axes = .ok c ∧ c.WF ∧ c.shape = cards d ∧
      ∀ a, InDom d a → c.get (coords d a) = F a / sumStates F ps.reverse a := by
  obtain ⟨s, s1, s2, s3⟩ := foldlM_sumKeep_ok hd hs ps axes hax hn (A := []) (by simp) (b := b) (F := F)
    (by rw [shapeK_nil, hb]) (by simpa [cidx_nil] using hF)
  refine ⟨build (cards d) fun idx => b.get (clip b.shape idx) / s.get (clip s.shape idx), ?_, wf_build _ _, rfl, fun a ha => ?_⟩
  · rw [normalizeArray, s1, py_ok_bind, zipWithB, hb, s2, bshape_shapeK]
  · rw [get_build _ (validIdx_coords ha), hb, s2, clip_valid (validIdx_coords ha), clip_shapeK _ ha, hF a ha, s3 a ha]

end NdArray
end Verif
