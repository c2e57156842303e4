import Verif.Net.Circuit

/-!
# Connected nodes: a network in which they depend on each other

No reference to the code, except for the graph that `dSeparated` looks at.
-/

set_option linter.unusedSectionVars false
set_option linter.unusedSimpArgs false

namespace Verif
open Relation

variable {V : Type} [DecidableEq V]

/-- Nodes that can be reached from `T` on a walk without blocks: it leaves no node of `Z`, and where two edges meet there is a
node of `Z` below.  The flag says whether the last edge points to the node. -/
inductive Active (g : DiGraph V) (T Z : List V) : V → Bool → Prop
  | start {t : V} (ht : t ∈ T) : Active g T Z t false
  | fwd {u w : V} {b : Bool} (h : Active g T Z u b) (e : g.Edge u w) (hu : u ∉ Z) : Active g T Z w true
  | bwd {u w : V} {b : Bool} (h : Active g T Z u b) (e : g.Edge w u) (hw : w ∉ Z) (hb : b = true → g.Needed Z u) : Active g T Z w false

/-- Down from `u`: either to a node of `Z` on the way, or all the way without one. -/
theorem down {g : DiGraph V} {Z : List V} {u s : V} (h : ReflTransGen g.Edge u s) :
    g.Needed Z u ∨ ReflTransGen (fun x y => g.Edge x y ∧ x ∉ Z ∧ y ∉ Z) u s := by
  induction h with
  | refl => exact .inr .refl
  | @tail x y h e ih =>
    rcases ih with ih | ih
    · exact .inl ih
    · by_cases hx : x ∈ Z
      · exact .inl ⟨x, hx, h⟩
      · by_cases hy : y ∈ Z
        · exact .inl ⟨y, hy, h.tail e⟩
        · exact .inr (ih.tail ⟨e, hx, hy⟩)

theorem Active.of_down {g : DiGraph V} {T Z : List V} {u s : V} (h : ReflTransGen (fun x y => g.Edge x y ∧ x ∉ Z ∧ y ∉ Z) u s) {b : Bool}
    (hu : Active g T Z u b) : ∃ b, Active g T Z s b := by
  induction h with
  | refl => exact ⟨b, hu⟩
  | tail _ e ih =>
    obtain ⟨b, ih⟩ := ih
    exact ⟨true, .fwd ih e.1 e.2.1⟩

theorem Active.of_up {g : DiGraph V} {T Z : List V} {u t : V} (h : ReflTransGen (fun x y => g.Edge x y ∧ x ∉ Z ∧ y ∉ Z) u t) (ht : t ∈ T) :
    Active g T Z u false := by
  induction h using ReflTransGen.head_induction_on with
  | refl => exact .start ht
  | head e _ ih => exact .bwd ih e.1 e.2.1 (fun h => by cases h)

/-- Nodes that are not separated are joined by such a walk. -/
theorem active_of_connected {g : DiGraph V} {T Y Z : List V} {t y : V} (ht : t ∈ T) (hy : y ∈ Y)
    (h : ReflTransGen (fun u w => (g.Edge u w ∧ u ∉ Z ∧ g.Needed (T ++ Y ++ Z) w) ∨ (g.Edge w u ∧ w ∉ Z ∧ g.Needed (T ++ Y ++ Z) u)) t y) :
    ∃ y ∈ Y, ∃ b, Active g T Z y b := by
  have key : (∃ y ∈ Y, ∃ b, Active g T Z y b) ∨ ∃ b, Active g T Z y b := by
    clear hy
    induction h with
    | refl => exact .inr ⟨false, .start ht⟩
    | @tail u w _ e ih =>
      rcases ih with ih | ⟨b, ih⟩
      · exact .inl ih
      rcases e with ⟨e, hu, _⟩ | ⟨e, hw, s, hs, hr⟩
      · exact .inr ⟨true, .fwd ih e hu⟩
      · cases b with
        | false => exact .inr ⟨false, .bwd ih e hw (fun h => by cases h)⟩
        | true =>
          rcases down (Z := Z) hr with hd | hd
          · exact .inr ⟨false, .bwd ih e hw fun _ => hd⟩
          · rcases List.mem_append.1 hs with hs | hs
            · rcases List.mem_append.1 hs with hs | hs
              · exact .inr ⟨false, .bwd (Active.of_up hd hs) e hw (fun h => by cases h)⟩
              · exact .inl ⟨s, hs, Active.of_down hd ih⟩
            · exact .inr ⟨false, .bwd ih e hw fun _ => ⟨s, hs, hr⟩⟩
  rcases key with h | ⟨b, h⟩
  · exact h
  · exact ⟨y, hy, b, h⟩

/-- The walk itself: `n` edges, `d i` says whether the `i`-th one points forward. -/
structure Walk (g : DiGraph V) (T Z : List V) (n : ℕ) (v : ℕ → V) (d : ℕ → Bool) : Prop where
  start : v 0 ∈ T
  fwd : ∀ i < n, d i = true → g.Edge (v i) (v (i + 1)) ∧ v i ∉ Z
  bwd : ∀ i < n, d i = false → g.Edge (v (i + 1)) (v i) ∧ v (i + 1) ∉ Z
  meet : ∀ i, i + 1 < n → d i = true → d (i + 1) = false → g.Needed Z (v (i + 1))

theorem Walk.extend {g : DiGraph V} {T Z : List V} {n : ℕ} {v : ℕ → V} {d : ℕ → Bool} (h : Walk g T Z n v d) {w : V} {b : Bool}
    (h1 : b = true → g.Edge (v n) w ∧ v n ∉ Z) (h2 : b = false → g.Edge w (v n) ∧ w ∉ Z)
    (h3 : ∀ m, n = m + 1 → d m = true → b = false → g.Needed Z (v n)) :
    Walk g T Z (n + 1) (fun i => if i ≤ n then v i else w) (fun i => if i < n then d i else b) where
  start := h.start
  fwd := by
    intro i hi hd
    rcases Nat.lt_succ_iff_lt_or_eq.1 hi with hi | rfl
    · simp only [hi, if_true] at hd
      simpa [hi.le, Nat.succ_le_of_lt hi] using h.fwd i hi hd
    · simp only [lt_irrefl, if_false] at hd
      simpa using h1 hd
  bwd := by
    intro i hi hd
    rcases Nat.lt_succ_iff_lt_or_eq.1 hi with hi | rfl
    · simp only [hi, if_true] at hd
      simpa [hi.le, Nat.succ_le_of_lt hi] using h.bwd i hi hd
    · simp only [lt_irrefl, if_false] at hd
      simpa using h2 hd
  meet := by
    intro i hi hd hd'
    have hi' : i < n := by omega
    simp only [hi', if_true] at hd
    rw [if_pos (by omega : i + 1 ≤ n)]
    by_cases hin : i + 1 < n
    · simp only [hin, if_true] at hd'
      exact h.meet i hin hd hd'
    · obtain rfl : n = i + 1 := by omega
      simp only [lt_irrefl, if_false] at hd'
      exact h3 i rfl hd hd'

theorem Active.walk {g : DiGraph V} {T Z : List V} {u : V} {b : Bool} (h : Active g T Z u b) :
    ∃ n v d, Walk g T Z n v d ∧ v n = u ∧ ∀ m, n = m + 1 → d m = b := by
  induction h with
  | @start t ht =>
    exact ⟨0, fun _ => t, fun _ => true, ⟨ht, by simp, by simp, by simp⟩, rfl, by simp⟩
  | @fwd u w b _ e hu ih =>
    obtain ⟨n, v, d, h1, h2, h3⟩ := ih
    refine ⟨n + 1, _, _, h1.extend (w := w) (b := true) (fun _ => h2 ▸ ⟨e, hu⟩) (by simp) (by simp), by simp, ?_⟩
    rintro m hm
    obtain rfl : n = m := by omega
    simp
  | @bwd u w b _ e hw hb ih =>
    obtain ⟨n, v, d, h1, h2, h3⟩ := ih
    refine ⟨n + 1, _, _, h1.extend (w := w) (b := false) (by simp) (fun _ => h2 ▸ ⟨e, hw⟩) (fun m hm hd _ => ?_), by simp, ?_⟩
    · rw [h2]
      exact hb ((h3 m hm).symm.trans hd)
    · rintro m hm
      obtain rfl : n = m := by omega
      simp

/-- A path down as a function -/
theorem path_fun {g : DiGraph V} {u s : V} (h : ReflTransGen g.Edge u s) :
    ∃ (l : ℕ) (f : ℕ → V), f 0 = u ∧ f l = s ∧ ∀ k < l, g.Edge (f k) (f (k + 1)) := by
  induction h with
  | refl => exact ⟨0, fun _ => u, rfl, rfl, by simp⟩
  | @tail x y _ e ih =>
    obtain ⟨l, f, h1, h2, h3⟩ := ih
    refine ⟨l + 1, fun k => if k ≤ l then f k else y, by simpa using h1, by simp, fun k hk => ?_⟩
    rcases Nat.lt_succ_iff_lt_or_eq.1 hk with hk | rfl
    · simpa [hk.le, Nat.succ_le_of_lt hk] using h3 k hk
    · simpa [h2] using e

/-- Where two edges meet -/
def meets (n : ℕ) (d : ℕ → Bool) : ℕ → Bool
  | 0 => false
  | i + 1 => decide (i + 1 < n) && d i && !d (i + 1)

/-- The gates of a walk: one for each position, and for a position where two edges meet those of a path down to `Z`. -/
def walkCircuit (n : ℕ) (d : ℕ → Bool) (len : ℕ → ℕ) (f : ℕ → ℕ → V) : Circuit V (ℕ × ℕ) where
  gates := (Finset.range (n + 1)).biUnion fun i => (Finset.range (len i + 1)).image fun k => (i, k)
  node := fun p => f p.1 p.2
  pars := fun p => match p with
    | (i, 0) => (match i with | 0 => [] | j + 1 => if d j then [(j, 0)] else []) ++ (if i < n ∧ d i = false then [(i + 1, 0)] else [])
    | (i, k + 1) => [(i, k)]

theorem mem_gates {n : ℕ} {d : ℕ → Bool} {len : ℕ → ℕ} {f : ℕ → ℕ → V} {i k : ℕ} :
    (i, k) ∈ (walkCircuit n d len f).gates ↔ i ≤ n ∧ k ≤ len i := by
  simp [walkCircuit, Nat.lt_succ_iff]

variable {g : DiGraph V} {T Y Z : List V} {n : ℕ} {v : ℕ → V} {d : ℕ → Bool} {len : ℕ → ℕ} {f : ℕ → ℕ → V}

theorem pars_zero {i : ℕ} : (walkCircuit n d len f).pars (i, 0) =
    (match i with | 0 => [] | j + 1 => if d j then [(j, 0)] else []) ++ (if i < n ∧ d i = false then [(i + 1, 0)] else []) := rfl

theorem pars_succ {i k : ℕ} : (walkCircuit n d len f).pars (i, k + 1) = [(i, k)] := rfl

/-- What a position with a single input can be -/
theorem pars_of_not_meets {i : ℕ} (hm : meets n d i = false) :
    ((walkCircuit n d len f).pars (i, 0) = [] ) ∨ (∃ j, i = j + 1 ∧ d j = true ∧ (walkCircuit n d len f).pars (i, 0) = [(j, 0)]) ∨
      (i < n ∧ d i = false ∧ (walkCircuit n d len f).pars (i, 0) = [(i + 1, 0)]) := by
  rw [pars_zero]
  cases i with
  | zero =>
    by_cases h : 0 < n ∧ d 0 = false
    · exact .inr (.inr ⟨h.1, h.2, by simp [h]⟩)
    · exact .inl (by simp [h])
  | succ j =>
    have hm' : ¬ (j + 1 < n ∧ d j = true ∧ d (j + 1) = false) := by
      rintro ⟨h1, h2, h3⟩
      simp [meets, h1, h2, h3] at hm
    by_cases hj : d j = true
    · refine .inr (.inl ⟨j, rfl, hj, ?_⟩)
      rw [if_neg fun h => hm' ⟨h.1, hj, h.2⟩]
      simp [hj]
    · by_cases h : j + 1 < n ∧ d (j + 1) = false
      · refine .inr (.inr ⟨h.1, h.2, ?_⟩)
        rw [if_pos h]
        simp [hj]
      · refine .inl ?_
        rw [if_neg h]
        simp [hj]

theorem pars_of_meets {i : ℕ} (hm : meets n d i = true) :
    ∃ j, i = j + 1 ∧ j + 1 < n ∧ d j = true ∧ d (j + 1) = false ∧ (walkCircuit n d len f).pars (i, 0) = [(j, 0), (i + 1, 0)] := by
  cases i with
  | zero => cases hm
  | succ j =>
    have h : (j + 1 < n ∧ d j = true) ∧ d (j + 1) = false := by simpa [meets] using hm
    refine ⟨j, rfl, h.1.1, h.1.2, h.2, ?_⟩
    rw [pars_zero, if_pos ⟨h.1.1, h.2⟩]
    simp [h.1.2]

theorem not_meets_of_true {i : ℕ} (h : d i = true) : meets n d i = false := by
  cases i with
  | zero => rfl
  | succ j => simp [meets, h]

theorem not_meets_of_false {i : ℕ} (h : d i = false) : meets n d (i + 1) = false := by
  simp [meets, h]

/-- The paths down -/
structure Downs (g : DiGraph V) (Z : List V) (n : ℕ) (v : ℕ → V) (d : ℕ → Bool) (len : ℕ → ℕ) (f : ℕ → ℕ → V) : Prop where
  top : ∀ i, f i 0 = v i
  edge : ∀ i, ∀ k < len i, g.Edge (f i k) (f i (k + 1))
  obs : ∀ i, meets n d i = true → f i (len i) ∈ Z
  none : ∀ i, meets n d i = false → len i = 0

theorem Walk.downs (h : Walk g T Z n v d) : ∃ len f, Downs g Z n v d len f := by
  have key : ∀ i, ∃ (l : ℕ) (f : ℕ → V), f 0 = v i ∧ (∀ k < l, g.Edge (f k) (f (k + 1))) ∧ (meets n d i = true → f l ∈ Z) ∧
      (meets n d i = false → l = 0) := by
    intro i
    cases hm : meets n d i with
    | false => exact ⟨0, fun _ => v i, rfl, by simp, by simp, by simp⟩
    | true =>
      obtain ⟨j, rfl, h1, h2, h3, _⟩ := pars_of_meets (len := fun _ => 0) (f := fun _ _ => v 0) hm
      obtain ⟨z, hz, hr⟩ := h.meet j h1 h2 h3
      obtain ⟨l, f, f1, f2, f3⟩ := path_fun hr
      exact ⟨l, f, f1, f3, fun _ => f2 ▸ hz, by simp⟩
  choose len f h1 h2 h3 h4 using key
  exact ⟨len, f, h1, h2, h3, h4⟩

theorem Walk.along (h : Walk g T Z n v d) (hd : Downs g Z n v d len f) : (walkCircuit n d len f).Along g := by
  rintro ⟨i, k⟩ hp ⟨i', k'⟩ hq
  obtain ⟨hi, hk⟩ := mem_gates.1 hp
  rw [mem_gates]
  show _ ∧ g.Edge (f i' k') (f i k)
  cases k with
  | succ k =>
    rw [pars_succ] at hq
    obtain ⟨rfl, rfl⟩ : i' = i ∧ k' = k := by simpa using hq
    exact ⟨⟨hi, by omega⟩, hd.edge _ _ hk⟩
  | zero =>
    rw [pars_zero] at hq
    rcases List.mem_append.1 hq with hq | hq
    · cases i with
      | zero => cases hq
      | succ j =>
        by_cases hj : d j = true
        · obtain ⟨rfl, rfl⟩ : i' = j ∧ k' = 0 := by simpa [hj] using hq
          rw [hd.top, hd.top]
          exact ⟨⟨by omega, by omega⟩, (h.fwd i' (by omega) hj).1⟩
        · simp [hj] at hq
    · by_cases hc : i < n ∧ d i = false
      · obtain ⟨rfl, rfl⟩ : i' = i + 1 ∧ k' = 0 := by simpa [hc] using hq
        rw [hd.top, hd.top]
        exact ⟨⟨hc.1, by omega⟩, (h.bwd i hc.1 hc.2).1⟩
      · simp [hc] at hq

theorem Walk.nodes (hg : g.WF) (hT : ∀ t ∈ T, t ∈ g.nodes) (h : Walk g T Z n v d) (hd : Downs g Z n v d len f) :
    ∀ p ∈ (walkCircuit n d len f).gates, (walkCircuit n d len f).node p ∈ g.nodes := by
  rintro ⟨i, k⟩ hp
  obtain ⟨hi, hk⟩ := mem_gates.1 hp
  show f i k ∈ g.nodes
  cases k with
  | succ k => exact (hg.ends _ (hd.edge i k hk)).2
  | zero =>
    rw [hd.top]
    cases i with
    | zero => exact hT _ h.start
    | succ j =>
      cases hj : d j with
      | true => exact (hg.ends _ (h.fwd j hi hj).1).2
      | false => exact (hg.ends _ (h.bwd j hi hj).1).1

/-- The two ends are equal when the gates at `Z` are off. -/
theorem Walk.same (hd : Downs g Z n v d len f) {β : ℕ × ℕ → Bool} (hβ : (walkCircuit n d len f).Sol β)
    (hZ : ∀ r ∈ (walkCircuit n d len f).gates, (walkCircuit n d len f).node r ∈ Z → β r = false) : β (0, 0) = β (n, 0) := by
  have copy : ∀ p ∈ (walkCircuit n d len f).gates, ∀ q, (walkCircuit n d len f).pars p = [q] → β p = β q := by
    intro p hp q hq
    have := hβ p hp (by rw [hq]; simp)
    rw [this, Circuit.out, hq]
    simp
  have off : ∀ i ≤ n, meets n d i = true → β (i, 0) = false := by
    intro i hi hm
    have : ∀ k ≤ len i, β (i, k) = β (i, 0) := by
      intro k
      induction k with
      | zero => intro _; rfl
      | succ k ih => intro hk; rw [copy (i, k + 1) (mem_gates.2 ⟨hi, hk⟩) (i, k) pars_succ, ih (by omega)]
    rw [← this (len i) le_rfl]
    exact hZ _ (mem_gates.2 ⟨hi, le_rfl⟩) (hd.obs i hm)
  have key : ∀ i ≤ n, (meets n d i = false → β (i, 0) = β (0, 0)) ∧ ∀ j, i = j + 1 → meets n d i = true → β (j, 0) = β (0, 0) := by
    intro i
    induction i with
    | zero => intro _; exact ⟨fun _ => rfl, fun j hj => by omega⟩
    | succ i ih =>
      intro hi
      obtain ⟨ih1, ih2⟩ := ih (by omega)
      have hg0 : (i, 0) ∈ (walkCircuit n d len f).gates := mem_gates.2 ⟨by omega, by omega⟩
      have hg1 : (i + 1, 0) ∈ (walkCircuit n d len f).gates := mem_gates.2 ⟨hi, by omega⟩
      cases hdi : d i with
      | true =>
        have h0 := ih1 (not_meets_of_true hdi)
        refine ⟨fun hm => ?_, fun j hj _ => ?_⟩
        · rcases pars_of_not_meets (len := len) (f := f) hm with h | ⟨j, hj, _, h⟩ | ⟨_, _, h⟩
          · rw [pars_zero] at h
            simp [hdi] at h
          · obtain rfl : i = j := by omega
            rw [copy _ hg1 _ h, h0]
          · rw [pars_zero] at h
            simp [hdi] at h
            omega
        · obtain rfl : i = j := by omega
          exact h0
      | false =>
        refine ⟨fun _ => ?_, fun j _ hm => by rw [not_meets_of_false hdi] at hm; cases hm⟩
        cases hm : meets n d i with
        | true =>
          obtain ⟨j, rfl, h1, h2, h3, h4⟩ := pars_of_meets (len := len) (f := f) hm
          have := hβ _ hg0 (by rw [h4]; simp)
          rw [off _ (by omega) hm, Circuit.out, h4] at this
          rw [← ih2 j rfl hm]
          exact Eq.symm (by simpa using this.symm)
        | false =>
          rcases pars_of_not_meets (len := len) (f := f) hm with h | ⟨j, rfl, hj, h⟩ | ⟨_, _, h⟩
          · rw [pars_zero, if_pos ⟨by omega, hdi⟩] at h
            simp at h
          · rw [pars_zero, if_pos ⟨by omega, hdi⟩] at h
            simp [hj] at h
          · rw [← copy _ hg0 _ h, ih1 hm]
  exact ((key n le_rfl).1 (by cases n <;> simp [meets])).symm

/-- The gates along the walk can be on, those at `Z` being off. -/
def walkOn (n : ℕ) (d : ℕ → Bool) (p : ℕ × ℕ) : Bool := decide (p.2 = 0) && !meets n d p.1

theorem Walk.sol (hd : Downs g Z n v d len f) : (walkCircuit n d len f).Sol (walkOn n d) := by
  rintro ⟨i, k⟩ hp h0
  obtain ⟨hi, hk⟩ := mem_gates.1 hp
  rw [Circuit.out]
  cases k with
  | succ k =>
    have hm : meets n d i = true := by
      cases h : meets n d i with
      | true => rfl
      | false => have := hd.none i h; omega
    simp [pars_succ, walkOn, hm]
  | zero =>
    cases hm : meets n d i with
    | true =>
      obtain ⟨j, rfl, h1, h2, h3, h4⟩ := pars_of_meets (len := len) (f := f) hm
      rw [h4]
      simp [walkOn, hm, not_meets_of_true h2, not_meets_of_false h3]
    | false =>
      rcases pars_of_not_meets (len := len) (f := f) hm with h | ⟨j, rfl, hj, h⟩ | ⟨_, hj, h⟩
      · exact absurd h h0
      · rw [h]; simp [walkOn, hm, not_meets_of_true hj]
      · rw [h]; simp [walkOn, hm, not_meets_of_false hj]

theorem Walk.off (hTZ : ∀ t ∈ T, t ∉ Z) (h : Walk g T Z n v d) (hn : v n ∉ Z) (hd : Downs g Z n v d len f) :
    ∀ r ∈ (walkCircuit n d len f).gates, (walkCircuit n d len f).node r ∈ Z → walkOn n d r = false := by
  rintro ⟨i, k⟩ hp hz
  obtain ⟨hi, hk⟩ := mem_gates.1 hp
  cases k with
  | succ k => simp [walkOn]
  | zero =>
    have hz : v i ∈ Z := by rw [← hd.top]; exact hz
    cases hm : meets n d i with
    | true => simp [walkOn, hm]
    | false =>
      exfalso
      cases i with
      | zero => exact hTZ _ h.start hz
      | succ j =>
        cases hj : d j with
        | false => exact (h.bwd j hi hj).2 hz
        | true =>
          rcases Nat.lt_or_eq_of_le hi with hlt | heq
          · cases hj' : d (j + 1) with
            | true => exact (h.fwd (j + 1) hlt hj').2 hz
            | false => simp [meets, hlt, hj, hj'] at hm
          · rw [heq] at hz; exact hn hz

/-- **Completeness**: nodes that are not separated depend on each other in some network. -/
theorem dsep_complete (K : Type) [Field K] [LinearOrder K] [IsStrictOrderedRing K] (hg : g.WF) (ha : g.Acyclic)
    (hT : ∀ t ∈ T, t ∈ g.nodes) (hTY : ∀ t ∈ T, t ∉ Y) (hTZ : ∀ t ∈ T, t ∉ Z) (hYZ : ∀ y ∈ Y, y ∉ Z) (hs : g.dSeparated T Y Z = false) :
    ∃ B : BN V (Finset (ℕ × ℕ)) K, B.Valid ∧ B.Normalised ∧ B.NonNeg ∧ B.nodes = g.nodes ∧ (∀ v, B.parents v = g.pred v) ∧
      ∃ a, B.InStates a ∧ B.marg (T ++ (Y ++ Z)) a = 0 ∧ 0 < B.marg (T ++ Z) a ∧ 0 < B.marg (Y ++ Z) a ∧ 0 < B.marg Z a := by
  have hs' := mt (dSeparated_iff hg ha hT (Y := Y) (Z := Z)).2 (by rw [hs]; simp)
  push Not at hs'
  obtain ⟨t, ht, y, hy, hr⟩ := hs'
  obtain ⟨y, hy, b, hact⟩ := active_of_connected ht hy hr
  obtain ⟨n, v, d, hw, hvn, _⟩ := hact.walk
  obtain ⟨len, f, hd⟩ := hw.downs
  have hc := hw.along hd
  refine ⟨(walkCircuit n d len f).net K g, Circuit.net_valid hg ha hc, Circuit.net_normalised ha hc, Circuit.net_nonneg, rfl, fun _ => rfl, ?_⟩
  refine Circuit.dependent hg ha hc (hw.nodes hg hT hd) hTY hTZ (p := (0, 0)) (q := (n, 0)) (mem_gates.2 ⟨by omega, by omega⟩)
    (mem_gates.2 ⟨le_rfl, by omega⟩) ?_ ?_ (fun β hβ hZ => Walk.same hd hβ hZ) (Walk.sol hd) (hw.off hTZ (by rw [hvn]; exact hYZ y hy) hd) rfl
  · show f 0 0 ∈ T
    rw [hd.top]; exact hw.start
  · show f n 0 ∈ Y
    rw [hd.top, hvn]; exact hy

end Verif
