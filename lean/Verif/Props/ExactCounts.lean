import Verif.Props.Data

/-!
# Exactly when every record is counted once (C57)

`dsepFilter g t r` is the pattern of the record `r`: what it observes of the variables that matter for `t`.
-/

set_option linter.unusedSectionVars false
set_option linter.unusedSimpArgs false

namespace Verif.Props
open Verif

variable {V S : Type} [DecidableEq V] [DecidableEq S]

theorem sum_countP_swap {X Y : Type} (rows : List X) (ks : List Y) (P : X → Y → Bool) :
    (ks.map fun k => rows.countP fun r => P r k).sum = (rows.map fun r => ks.countP (P r)).sum := by
  induction ks with
  | nil => simp
  | cons k ks ih =>
    rw [List.map_cons, List.sum_cons, ih]
    clear ih
    induction rows with
    | nil => rfl
    | cons r rows ih =>
      rw [List.countP_cons, List.map_cons, List.sum_cons, List.map_cons, List.sum_cons, ← ih, List.countP_cons]
      omega

theorem each_of_forall₂ {X Y : Type} {R : X → Y → Prop} {l : List X} {r : List Y} (h : List.Forall₂ R l r) : ∀ x ∈ l, ∃ y, R x y := by
  induction h with
  | nil => simp
  | cons h _ ih =>
    intro x hx
    rcases List.mem_cons.1 hx with rfl | hx
    · exact ⟨_, h⟩
    · exact ih x hx

theorem sum_eq_length_iff {X : Type} (rows : List X) (c : X → ℕ) (h : ∀ r ∈ rows, 1 ≤ c r) :
    (rows.map c).sum = rows.length ↔ ∀ r ∈ rows, c r = 1 := by
  induction rows with
  | nil => simp
  | cons r rows ih =>
    have h1 := h r List.mem_cons_self
    have h2 := ih fun x hx => h x (List.mem_cons_of_mem _ hx)
    have h3 : rows.length ≤ (rows.map c).sum := by
      clear ih h2
      induction rows with
      | nil => simp
      | cons x rows ih =>
        have := ih fun y hy => h y (by rcases List.mem_cons.1 hy with rfl | hy <;> simp [*])
        have := h x (by simp)
        simp only [List.map_cons, List.sum_cons, List.length_cons]; omega
    rw [List.map_cons, List.sum_cons, List.length_cons, List.forall_mem_cons, ← h2]
    omega

theorem countP_one {X : Type} [DecidableEq X] {ks : List X} (hn : ks.Nodup) {p : X → Bool} (h : 1 ≤ ks.countP p) :
    ks.countP p = 1 ↔ ∀ x ∈ ks, ∀ y ∈ ks, p x = true → p y = true → x = y := by
  rw [List.countP_eq_length_filter] at h ⊢
  constructor
  · intro h1 x hx y hy px py
    obtain ⟨z, hz⟩ := List.length_eq_one_iff.1 h1
    have e1 : x ∈ ks.filter p := List.mem_filter.2 ⟨hx, px⟩
    have e2 : y ∈ ks.filter p := List.mem_filter.2 ⟨hy, py⟩
    rw [hz, List.mem_singleton] at e1 e2
    rw [e1, e2]
  · intro h1
    have hf := hn.filter p
    rcases hl : ks.filter p with _ | ⟨x, _ | ⟨y, l⟩⟩
    · rw [hl] at h; simp at h
    · rfl
    · have hx : x ∈ ks.filter p := by rw [hl]; simp
      have hy : y ∈ ks.filter p := by rw [hl]; simp
      rw [hl] at hf
      have := h1 x (List.mem_filter.1 hx).1 y (List.mem_filter.1 hy).1 (List.mem_filter.1 hx).2 (List.mem_filter.1 hy).2
      simp [this] at hf

/-- Agreement does not depend on the order of the entries -/
theorem agrees_same {r : Rec V S} {o o' : Obs V S} (hk : (Dict.keys o).Nodup) (h : SameObs o o') (ha : Agrees r o') : Agrees r o := by
  intro p hp
  have := Dict.get?_of_mem (k := p.1) (v := p.2) hk hp
  rw [h p.1] at this
  exact ha _ (Dict.mem_of_get? this)

/-- **C57** the weights can be computed exactly when every record observes something that matters. -/
theorem C57_answered {g : DiGraph V} {fr : Frame V S} (hw : fr.WF) {t : V} :
    (∃ l, obsCounts g fr t = .ok l) ↔ ∀ r ∈ fr.rows, ∃ v ∈ Rec.observed r, v ∈ t :: g.dconNodes t (Rec.observed r) := by
  constructor
  · rintro ⟨l, hl⟩ r hr
    obtain ⟨d, hd, hs⟩ := (C60_patterns g fr t).2 r hr
    by_contra hc
    push Not at hc
    have he : dsepFilter g t r = [] := List.eq_nil_iff_forall_not_mem.2 fun p hp => by
      obtain ⟨h1, h2, h3⟩ := (mem_dsepFilter hw.nodup (hw.keys r hr)).1 hp
      refine hc p.1 ?_ h2
      rw [observed_eq hw.nodup (hw.keys r hr)]
      exact List.mem_filter.2 ⟨h1, by rw [h3]; rfl⟩
    have hd0 : d = [] := List.eq_nil_iff_forall_not_mem.2 fun p hp => by
      have h1 := hs p.1
      rw [he] at h1
      exact Dict.get?_eq_none.1 h1 (Dict.mem_keys_of_mem hp)
    subst hd0
    obtain ⟨y, hy⟩ := each_of_forall₂ (mapM_eq_ok hl) [] hd
    simp [matchCount] at hy
  · intro h
    obtain ⟨l, hl, _⟩ := C57_at_least hw h
    exact ⟨l, hl⟩

/-- **C57** then the weights add up to the number of records exactly when no record agrees with the pattern of another record that is
not also its own. -/
theorem C57_exact {g : DiGraph V} {fr : Frame V S} (hw : fr.WF) {t : V} {l : List (Obs V S × ℕ)} (hl : obsCounts g fr t = .ok l) :
    (l.map Prod.snd).sum = fr.rows.length ↔
      ∀ r ∈ fr.rows, ∀ r' ∈ fr.rows, Agrees r (dsepFilter g t r') → SameObs (dsepFilter g t r') (dsepFilter g t r) := by
  have hne := (C57_answered hw).1 ⟨l, hl⟩
  have hne' : ∀ r ∈ fr.rows, ∃ v ∈ fr.cols, v ∈ t :: g.dconNodes t (Rec.observed r) ∧ (Rec.val r v).isSome := by
    intro r hr
    obtain ⟨v, h1, h2⟩ := hne r hr
    rw [observed_eq hw.nodup (hw.keys r hr)] at h1
    obtain ⟨h3, h4⟩ := List.mem_filter.1 h1
    exact ⟨v, h3, h2, h4⟩
  rw [obsCounts_ok hw hne'] at hl
  cases hl
  have hP := fun r (hr : r ∈ fr.rows) => own_pattern (g := g) (t := t) hw hr
  have hnd := obsBlanket_nodup g fr t
  have hpw : ∀ d ∈ obsBlanket g fr t, ∀ d' ∈ obsBlanket g fr t, SameObs d d' → d = d' := by
    intro d hd d' hd' h
    by_contra hc
    have := (C60_exactly_once ((dropDup fr.rows).map (dsepFilter g t))).2.2
    obtain ⟨i, hi, rfl⟩ := List.getElem_of_mem hd
    obtain ⟨j, hj, rfl⟩ := List.getElem_of_mem hd'
    rcases Nat.lt_trichotomy i j with hij | rfl | hij
    · exact List.pairwise_iff_getElem.1 this i j hi hj hij h
    · exact hc rfl
    · exact List.pairwise_iff_getElem.1 this j i hj hi hij fun k => (h k).symm
  have hone : ∀ r ∈ fr.rows, 1 ≤ (obsBlanket g fr t).countP fun o => o.all fun p => Rec.eqAt r p.1 p.2 := by
    intro r hr
    obtain ⟨o, h1, h2⟩ := List.any_eq_true.1 (hP r hr)
    exact List.countP_pos_iff.2 ⟨o, h1, h2⟩
  rw [List.map_map]
  refine Iff.trans (by rw [← sum_countP_swap]; rfl) ((sum_eq_length_iff fr.rows _ hone).trans ?_)
  refine forall₂_congr fun r hr => ?_
  rw [countP_one hnd (hone r hr)]
  have hag : ∀ o, (o.all fun p => Rec.eqAt r p.1 p.2) = true ↔ Agrees r o := fun o => agrees_iff hw.nodup (hw.keys r hr) o
  simp only [hag]
  have hkn : ∀ r ∈ fr.rows, (Dict.keys (dsepFilter g t r)).Nodup := fun r hr => keys_dsepFilter_nodup hw.nodup (hw.keys r hr) g t
  have hkd : ∀ d ∈ obsBlanket g fr t, (Dict.keys d).Nodup := by
    intro d hd
    obtain ⟨r', hr', rfl⟩ := (C60_patterns g fr t).1 d hd
    exact hkn r' hr'
  have hself : Agrees r (dsepFilter g t r) := fun p hp => (mem_iff_val hw.nodup (hw.keys r hr)).2
    ((mem_dsepFilter hw.nodup (hw.keys r hr)).1 hp).2.2
  constructor
  · intro h r' hr' ha
    obtain ⟨d, hd, hs⟩ := (C60_patterns g fr t).2 r' hr'
    obtain ⟨e, he, hs'⟩ := (C60_patterns g fr t).2 r hr
    have := h d hd e he (agrees_same (hkd d hd) hs ha) (agrees_same (hkd e he) hs' hself)
    subst this
    exact fun k => (hs k).symm.trans (hs' k)
  · intro h d hd e he ha hb
    obtain ⟨r1, hr1, rfl⟩ := (C60_patterns g fr t).1 d hd
    obtain ⟨r2, hr2, rfl⟩ := (C60_patterns g fr t).1 e he
    exact hpw _ hd _ he fun k => (h r1 hr1 ha k).trans (h r2 hr2 hb k).symm

/-- `frU` meets the condition and `frMixed` does not: there the second record agrees with the pattern of the first. -/
theorem C57_exact_example :
    (∀ r ∈ frU.rows, ∀ r' ∈ frU.rows, Agrees r (dsepFilter gUAB 'U' r') → dsepFilter gUAB 'U' r' = dsepFilter gUAB 'U' r) ∧
    ∃ r ∈ frMixed.rows, ∃ r' ∈ frMixed.rows, Agrees r (dsepFilter gUAB 'U' r') ∧
      Dict.get? (dsepFilter gUAB 'U' r') 'B' ≠ Dict.get? (dsepFilter gUAB 'U' r) 'B' := by
  constructor <;> decide +kernel

/-- Different missing values do no harm as long as the patterns exclude each other: here the first record misses `B`, but the
others have another value of `A`. -/
def frApart : Frame Char Char :=
  ⟨['A', 'B', 'U'], [[('A', some '0'), ('B', none), ('U', none)], [('A', some '1'), ('B', some '1'), ('U', none)],
    [('A', some '1'), ('B', some '0'), ('U', none)]]⟩

theorem C57_apart : frApart.WF ∧ (∀ r ∈ frApart.rows, ∀ r' ∈ frApart.rows, Agrees r (dsepFilter gUAB 'U' r') →
      dsepFilter gUAB 'U' r' = dsepFilter gUAB 'U' r) ∧
    obsCounts gUAB frApart 'U' = .ok [([('A', '0')], 1), ([('A', '1'), ('B', '1')], 1), ([('A', '1'), ('B', '0')], 1)] :=
  ⟨⟨by decide, by decide⟩, by decide +kernel, by decide +kernel⟩

end Verif.Props
