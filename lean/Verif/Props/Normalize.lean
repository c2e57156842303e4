import Verif.Util.NormalizeLemmas
import Mathlib.Data.Rat.Defs
import Mathlib.Algebra.Order.Ring.Rat

/-!
# C20: random and uniform conditional tables are normalised
-/

set_option linter.unusedSectionVars false
set_option linter.unusedSimpArgs false

namespace Verif
namespace Props

variable {K : Type} [Field K] [LinearOrder K]

/-- Specification: sum of the entries of an array of the given shape over all positions along the
axes, the other positions being as in `idx`. -/
def sumAxes {β : Type} [AddCommMonoid β] (sh : List Nat) : List Nat → (List Nat → β) → List Nat → β
  | [], g, idx => g idx
  | i :: is, g, idx => ((List.range (sh.getD i 0)).map fun j => sumAxes sh is g (idx.set i j)).sum

/-- The axes of an array as a domain: variable `i` has the positions `0, 1, …` along axis `i`. -/
def axesDom (sh : List Nat) : Dom Nat Nat := (List.range sh.length).map fun i => (i, List.range (sh.getD i 0))

theorem axesDom_keys (sh : List Nat) : Dict.keys (axesDom sh) = List.range sh.length := by
  simp [Dict.keys, axesDom, Function.comp_def]

theorem axesDom_cards (sh : List Nat) : cards (axesDom sh) = sh := by
  refine List.ext_getElem (by simp [cards, axesDom]) fun i h1 h2 => ?_
  simp [cards, axesDom, List.getElem?_eq_getElem h2]

theorem axesDom_coords {sh : List Nat} {idx : List Nat} (h : ValidIdx sh idx) :
    coords (axesDom sh) (fun i => idx.getD i 0) = idx := by
  have hl : idx.length = sh.length := h.length_eq
  refine List.ext_getElem (by simp [coords, axesDom, hl]) fun i h1 h2 => ?_
  have hi : i < sh.length := hl ▸ h2
  have : idx[i] < sh[i] := (List.forall₂_iff_get.1 h).2 i h2 hi
  simp only [coords, axesDom, List.map_map, List.getElem_map, List.getElem_range, Function.comp, List.getD_eq_getElem?_getD,
    List.getElem?_eq_getElem h2, List.getElem?_eq_getElem hi, Option.getD_some]
  have hr : idx[i] = (List.range sh[i])[idx[i]]'(by simpa using this) := by simp
  conv_lhs => rw [hr]
  rw [List.Nodup.idxOf_getElem List.nodup_range]

theorem axesDom_inDom {sh : List Nat} {idx : List Nat} (h : ValidIdx sh idx) :
    InDom (axesDom sh) (fun i => idx.getD i 0) := by
  have hl : idx.length = sh.length := h.length_eq
  intro p hp
  obtain ⟨i, hi, rfl⟩ := List.mem_map.1 hp
  have hi : i < sh.length := by simpa using hi
  have : idx[i]'(hl ▸ hi) < sh[i] := (List.forall₂_iff_get.1 h).2 i (hl ▸ hi) hi
  simp [List.getElem?_eq_getElem (hl ▸ hi : i < idx.length), List.getElem?_eq_getElem hi, this]

theorem sumAxes_eq {β : Type} [AddCommMonoid β] {sh axes : List Nat} (hx : ∀ i ∈ axes, i < sh.length) {g : List Nat → β}
    {φ : (Nat → Nat) → β} (hg : ∀ idx, ValidIdx sh idx → φ (fun i => idx.getD i 0) = g idx) {idx : List Nat}
    (h : ValidIdx sh idx) :
    sumAxes sh axes g idx = sumOver (fun i => List.range (sh.getD i 0)) axes φ (fun i => idx.getD i 0) := by
  induction axes generalizing idx with
  | nil => exact (hg idx h).symm
  | cons i is ih =>
    simp only [sumAxes, sumOver]
    congr 1
    refine List.map_congr_left fun j hj => ?_
    have hi := hx i List.mem_cons_self
    have hl : idx.length = sh.length := h.length_eq
    have hv : ValidIdx sh (idx.set i j) := by
      refine List.forall₂_iff_get.2 ⟨by simpa using hl, fun k h1 h2 => ?_⟩
      have h1' : k < idx.length := by simpa using h1
      have := (List.forall₂_iff_get.1 h).2 k h1' h2
      simp only [List.get_eq_getElem, List.getElem_set] at this ⊢
      split
      · subst_vars
        simpa [List.getElem?_eq_getElem h2] using hj
      · exact this
    rw [ih (fun k hk => hx k (List.mem_cons_of_mem _ hk)) hv]
    congr 1
    funext k
    by_cases hk : k = i
    · subst hk
      simp [upd, List.getD_eq_getElem?_getD, hl ▸ hi]
    · simp [upd, hk, List.getD_eq_getElem?_getD, List.getElem?_set, Ne.symm hk]

/-- **C20**, arrays: `normalize_array(b, axes)` has the shape of `b`; wherever the sum of `b` over the
axes is not zero, the entries are those of `b` divided by the sum, and they sum to one. -/
theorem C20_normalize_array {sh : List Nat} {t : List K} (ht : t.length = sh.prod) {axes : List Nat} (hn : axes.Nodup)
    (hx : ∀ i ∈ axes, i < sh.length) :
    ∃ c, NdArray.normalizeArray ⟨sh, t.map Fl.fin⟩ axes = .ok c ∧ c.WF ∧ c.shape = sh ∧
      ∀ idx, ValidIdx sh idx → sumAxes sh axes (fun i => t.getD (ravel sh i) 0) idx ≠ 0 →
        c.get idx = .fin (t.getD (ravel sh idx) 0 / sumAxes sh axes (fun i => t.getD (ravel sh i) 0) idx) ∧
        sumAxes sh axes c.get idx = .fin 1 := by
  have hd : (Dict.keys (axesDom sh)).Nodup := by rw [axesDom_keys]; exact List.nodup_range
  have hcards := axesDom_cards sh
  let st : Nat → List Nat := fun i => List.range (sh.getD i 0)
  let ps : Dom Nat Nat := axes.map fun i => (i, st i)
  have hps : Dict.keys ps = axes := by simp [Dict.keys, ps, Function.comp_def]
  obtain ⟨c, c1, c2, c3, c4⟩ := NdArray.normalizeArray_ok (d := axesDom sh) (ps := ps) (axes := axes) hd
    (by intro p hp; obtain ⟨i, _, rfl⟩ := List.mem_map.1 hp; exact List.nodup_range)
    (by
      rw [List.forall₂_map_right_iff, List.forall₂_same]
      intro i hi
      simp [axesDom, hx i hi, st])
    (by rw [hps]; exact hn) (b := ⟨sh, t.map Fl.fin⟩) (F := fun a => Fl.fin (cellAt (axesDom sh) t a)) hcards.symm
    (fun a ha => by
      have := get_table (d := axesDom sh) (t := t) (by rw [hcards]; exact ht) ha
      rw [hcards] at this; exact this)
  rw [hcards] at c3
  have hrev : ∀ a, sumStates (fun a => Fl.fin (cellAt (axesDom sh) t a)) ps.reverse a =
      .fin (sumOver st axes (cellAt (axesDom sh) t) a) := by
    intro a
    rw [Factor.sumStates_fin (hI := (storeOf_lawful .numpy : (storeOf .numpy : StoreImpl Nat Nat (Fl K)).Lawful)),
      sumOver_perm (List.reverse_perm axes).symm hn, sumOver_eq_sumStates, List.map_reverse]
  have hcell : ∀ idx, ValidIdx sh idx → cellAt (axesDom sh) t (fun i => idx.getD i 0) = t.getD (ravel sh idx) 0 := by
    intro idx h
    rw [cellAt, hcards, axesDom_coords h]
  have hcg : ∀ idx, ValidIdx sh idx → sumOver st axes (cellAt (axesDom sh) t) (fun i => idx.getD i 0) ≠ 0 →
      c.get idx = .fin (cellAt (axesDom sh) t (fun i => idx.getD i 0) /
        sumOver st axes (cellAt (axesDom sh) t) (fun i => idx.getD i 0)) := by
    intro idx h hz
    have := c4 _ (axesDom_inDom h)
    rw [axesDom_coords h, hrev, Fl.fin_div hz] at this
    exact this
  refine ⟨c, c1, c2, c3, fun idx h hz => ?_⟩
  rw [sumAxes_eq hx hcell h] at hz ⊢
  refine ⟨by rw [hcg idx h hz, hcell idx h], ?_⟩
  have hdep := cellAt_dep (axesDom sh) t
  -- inside the sum the divisor does not change
  have hsum : ∀ (ax : List Nat), (∀ i ∈ ax, i ∈ axes) → ∀ idx, ValidIdx sh idx →
      sumOver st axes (cellAt (axesDom sh) t) (fun i => idx.getD i 0) ≠ 0 →
      sumAxes sh ax c.get idx = .fin (sumOver st ax (fun b => cellAt (axesDom sh) t b /
        sumOver st axes (cellAt (axesDom sh) t) b) (fun i => idx.getD i 0)) := by
    intro ax
    induction ax with
    | nil => intro _ idx h hz; exact hcg idx h hz
    | cons i is ih =>
      intro hsub idx h hz
      have hi := hx i (hsub i List.mem_cons_self)
      have hl : idx.length = sh.length := h.length_eq
      simp only [sumAxes, sumOver]
      rw [← Fl.sum_fin']
      congr 1
      refine List.map_congr_left fun j hj => ?_
      have hv : ValidIdx sh (idx.set i j) := by
        refine List.forall₂_iff_get.2 ⟨by simpa using hl, fun k h1 h2 => ?_⟩
        have h1' : k < idx.length := by simpa using h1
        have := (List.forall₂_iff_get.1 h).2 k h1' h2
        simp only [List.get_eq_getElem, List.getElem_set] at this ⊢
        split
        · subst_vars
          simpa [List.getElem?_eq_getElem h2] using hj
        · exact this
      have hup : (fun k => (idx.set i j).getD k 0) = upd (fun k => idx.getD k 0) i j := by
        funext k
        by_cases hk : k = i
        · subst hk
          simp [upd, List.getD_eq_getElem?_getD, hl ▸ hi]
        · simp [upd, hk, List.getD_eq_getElem?_getD, List.getElem?_set, Ne.symm hk]
      rw [ih (fun k hk => hsub k (List.mem_cons_of_mem _ hk)) _ hv, hup]
      rw [hup, hdep.sumOver axes _ (fun k => idx.getD k 0) fun v hvm => by
        refine upd_ne _ _ ?_
        rintro rfl
        simpa [hsub v List.mem_cons_self] using (List.mem_filter.1 hvm).2]
      exact hz
  rw [hsum axes (fun _ h => h) idx h hz, sum_quotients hdep hz]

variable [IsStrictOrderedRing K] {V S : Type} [DecidableEq V] [DecidableEq S] [Nonempty S] {vt : VType}

local notation "II" => (storeOf vt : StoreImpl V S (Fl K))

/-- The factor is a table `P(left | right)` over the domain `d`: finite non-negative values that sum to
one over the left variables for every configuration of the right ones. -/
structure IsCPT {I : StoreImpl V S (Fl K)} (f : Factor I) (d : Dom V S) (right : List V) : Prop where
  wf : f.WF
  dom : f.dom = d
  rightVars : f.rightVars = right
  table : ∃ φ : (V → S) → K, (∀ a, InDom d a → f.sem a = .fin (φ a) ∧ 0 ≤ φ a) ∧
    ∀ a, InDom d a → sumOver (domStates d) ((Dict.keys d).filter (fun v => v ∉ right)) φ a = 1

theorem cell_nonneg {d : Dom V S} {t : List K} (h : ∀ x ∈ t, 0 ≤ x) (a : V → S) : 0 ≤ cellAt d t a := by
  rw [cellAt, List.getD_eq_getElem?_getD]
  rcases ho : t[ravel (cards d) (coords d a)]? with _ | x
  · exact le_refl _
  · exact h x (List.mem_of_getElem? ho)

theorem cpt_of_normalized {d : Dom V S} (hd : DomOk d) (right : List V) {t : List K}
    (ht : t.length = (cards d).prod) (hp : ∀ x ∈ t, 0 ≤ x)
    (hz : ∀ a, InDom d a → sumOver (domStates d) ((Dict.keys d).filter (· ∉ right)) (cellAt d t) a ≠ 0) :
    ∃ f, (do let data ← NdArray.normalizeArray ⟨cards d, t.map Fl.fin⟩ (leftDims d right)
             Factor.make II d data.flat none (some right)) = .ok f ∧ IsCPT f d right ∧
      ((∀ x ∈ t, 0 < x) → ∀ a, InDom d a → ∃ x, f.sem a = .fin x ∧ 0 < x) := by
  obtain ⟨f, f1, f2, f3, f4, f5⟩ := normalized_factor (storeOf_lawful vt) hd right ht hz
  refine ⟨f, f1, ⟨f2, f3, f4, _, fun a ha => ⟨f5 a ha, ?_⟩, fun a ha => ?_⟩, fun hpos a ha => ⟨_, f5 a ha, div_pos ?_ (lt_of_le_of_ne ?_ (hz a ha).symm)⟩⟩
  · refine div_nonneg (cell_nonneg hp a) ?_
    exact sumOver_nonneg (hd.keys.filter _) fun b _ _ => cell_nonneg hp b
  · exact sum_quotients (cellAt_dep d t) (hz a ha)
  · have := ravel_coords_lt ha ht
    rw [cellAt, List.getD_eq_getElem?_getD, List.getElem?_eq_getElem this]
    exact hpos _ (List.getElem_mem _)
  · exact sumOver_nonneg (hd.keys.filter _) fun b _ _ => cell_nonneg hp b

/-- **C20**, `random_multinomial` with zeros allowed: for every outcome of the generator in which no
column of draws is zero throughout, the factor is a conditional table. -/
theorem C20_random (vt : VType) {d : Dom V S} (hd : DomOk d) (right : Option (List V)) {draws : List K}
    (hl : draws.length = (cards d).prod) (hp : ∀ x ∈ draws, 0 ≤ x)
    (hz : ∀ a, InDom d a → ∃ b, InDom d b ∧ (∀ v ∈ right.getD [], a v = b v) ∧ (∀ v, v ∉ Dict.keys d → a v = b v) ∧
      cellAt d draws b ≠ 0) :
    ∃ f, randomMultinomial II d right true ⟨cards d, draws.map Fl.fin⟩ = .ok f ∧ IsCPT f d (right.getD []) := by
  suffices hs : ∀ a, InDom d a → sumOver (domStates d) ((Dict.keys d).filter (· ∉ right.getD [])) (cellAt d draws) a ≠ 0 by
    obtain ⟨f, f1, f2, _⟩ := cpt_of_normalized hd _ hl hp hs
    exact ⟨f, f1, f2⟩
  intro a ha h0
  obtain ⟨b, hb, hab, hout, hne⟩ := hz a ha
  refine hne (sumOver_eq_zero (hd.keys.filter _) (fun c _ _ => cell_nonneg hp c) h0 (b := b) (fun v hv => ?_) fun v hv => ?_)
  · by_cases hk : v ∈ Dict.keys d
    · refine (hab v ?_).symm
      by_contra hr
      exact hv (List.mem_filter.2 ⟨hk, by simpa using hr⟩)
    · exact (hout v hk).symm
  · obtain ⟨st, hst⟩ := Dict.mem_keys.1 (List.mem_filter.1 hv).1
    rw [domStates_of_mem hd.keys hst]
    exact hb _ hst

theorem sum_pos_of_pos {d : Dom V S} (hd : DomOk d) (right : List V) {t : List K} (ht : t.length = (cards d).prod)
    (hp : ∀ x ∈ t, 0 < x) {a : V → S} (ha : InDom d a) :
    sumOver (domStates d) ((Dict.keys d).filter (· ∉ right)) (cellAt d t) a ≠ 0 := by
  intro h0
  have hpos : 0 < cellAt d t a := by
    have := ravel_coords_lt ha ht
    rw [cellAt, List.getD_eq_getElem?_getD, List.getElem?_eq_getElem this]
    exact hp _ (List.getElem_mem this)
  refine absurd (sumOver_eq_zero (hd.keys.filter _) (fun c _ _ => cell_nonneg (fun x hx => (hp x hx).le) c) h0 (b := a)
    (fun _ _ => rfl) fun v hv => ?_) (ne_of_gt hpos)
  obtain ⟨st, hst⟩ := Dict.mem_keys.1 (List.mem_filter.1 hv).1
  rw [domStates_of_mem hd.keys hst]
  exact ha _ hst

/-- **C20**, `random_multinomial` with zeros not allowed: the draws lie in `[-1, 0)`, so that every
outcome of the generator gives a conditional table without zeros. -/
theorem C20_random_nonzero (vt : VType) {d : Dom V S} (hd : DomOk d) (right : Option (List V)) {draws : List K}
    (hl : draws.length = (cards d).prod) (hp : ∀ x ∈ draws, x < 0) :
    ∃ f, randomMultinomial II d right false ⟨cards d, draws.map Fl.fin⟩ = .ok f ∧ IsCPT f d (right.getD []) ∧
      ∀ a, InDom d a → ∃ x, f.sem a = .fin x ∧ 0 < x := by
  have hm : (draws.map Fl.fin).map (Fl.fin (-1) * · : Fl K → Fl K) = (draws.map (-1 * ·)).map Fl.fin := by
    simp [Function.comp_def]
  have hpos : ∀ x ∈ draws.map (-1 * ·), 0 < x := by
    intro x hx
    obtain ⟨y, hy, rfl⟩ := List.mem_map.1 hx
    simpa using hp y hy
  have hlen : (draws.map (-1 * ·)).length = (cards d).prod := by simpa using hl
  simp only [randomMultinomial, Bool.false_eq_true, if_false, hm]
  obtain ⟨f, f1, f2, f3⟩ := cpt_of_normalized hd (right.getD []) hlen (fun x hx => (hpos x hx).le) fun a ha =>
    sum_pos_of_pos hd _ hlen hpos ha
  exact ⟨f, f1, f2, f3 hpos⟩

/-- **C20**, `uniform_multinomial` gives a conditional table, for every domain and choice of right
variables. -/
theorem C20_uniform (vt : VType) {d : Dom V S} (hd : DomOk d) (right : Option (List V)) :
    ∃ f, uniformMultinomial II d right = .ok f ∧ IsCPT f d (right.getD []) ∧ ∀ a, InDom d a → ∃ x, f.sem a = .fin x ∧ 0 < x := by
  have hm : List.replicate (cards d).prod (Fl.fin (1 : K)) = (List.replicate (cards d).prod 1).map Fl.fin := by simp
  have hpos : ∀ x ∈ List.replicate (cards d).prod (1 : K), 0 < x := by
    intro x hx
    rw [List.eq_of_mem_replicate hx]
    exact one_pos
  simp only [uniformMultinomial, hm]
  obtain ⟨f, f1, f2, f3⟩ := cpt_of_normalized hd (right.getD []) (by simp) (fun x hx => (hpos x hx).le) fun a ha =>
    sum_pos_of_pos hd _ (by simp) hpos ha
  exact ⟨f, f1, f2, f3 hpos⟩

/-- All entries of the uniform table are equal within a column, so they are the inverse of the number
of joint states of the left variables: two columns over a variable with three states. -/
example : (match uniformMultinomial (storeOf .numpy : StoreImpl String Nat (Fl ℚ)) [("X", [0, 1, 2]), ("Y", [0, 1])] (some ["Y"]) with
    | .ok f => f.valuesList | .error e => .error e) = .ok (List.replicate 6 (.fin (1 / 3))) := by decide +kernel

/-- The hypotheses of `C20_random` can be met, with zeros among the draws. -/
example : (match randomMultinomial (storeOf .treedict : StoreImpl String Nat (Fl ℚ)) [("X", [0, 1]), ("Y", [0, 1])] (some ["Y"])
      true ⟨[2, 2], [.fin (1 / 2), .fin 0, .fin (1 / 4), .fin (1 / 3)]⟩ with
    | .ok f => f.valuesList | .error e => .error e) = .ok [.fin (2 / 3), .fin 0, .fin (1 / 3), .fin 1] := by decide +kernel

/-- The condition on the columns is needed: a column of zeros becomes a column of `nan`. -/
theorem C20_zero_column :
    (match randomMultinomial (storeOf .numpy : StoreImpl String Nat (Fl ℚ)) [("X", [0, 1]), ("Y", [0, 1])] (some ["Y"])
      true ⟨[2, 2], [.fin (1 / 2), .fin 0, .fin (1 / 2), .fin 0]⟩ with
    | .ok f => f.valuesList | .error e => .error e) = .ok [.fin (1 / 2), .nan, .fin (1 / 2), .nan] := by decide +kernel

end Props
end Verif
