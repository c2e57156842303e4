import Verif.Store.BTree
import Verif.Store.NumpyList
import Verif.Factor.Lemmas
import Mathlib.Algebra.Order.BigOperators.Group.List

/-!
# Lemmas on the binary-tree store
-/

set_option linter.unusedSectionVars false
set_option linter.unusedSimpArgs false

namespace Verif

variable {V S K : Type} [DecidableEq V] [DecidableEq S]

theorem cards_append (d e : Dom V S) : cards (d ++ e) = cards d ++ cards e := by simp [cards]

namespace NumpyStore
variable {α : Type} [Inhabited α]

theorem valuesList_ok [Nonempty S] {t : NumpyStore V S α} (ht : t.WF) :
    t.valuesList = .ok ((assignmentSpace t.dom).map fun o => t.sem (asg o)) := by
  refine mapM_ok fun o ho => ?_
  have h := mem_assignmentSpace_fullObs ht.dom.keys ho
  exact getValue_ok ht h.inDom h.covers

/-- The values are those at the assignments. -/
theorem mem_values [Nonempty S] {t : NumpyStore V S α} (ht : t.WF) {x : α} :
    (x ∈ (assignmentSpace t.dom).map fun o => t.sem (asg o)) ↔ ∃ a, InDom t.dom a ∧ t.sem a = x := by
  rw [List.mem_map]
  constructor
  · rintro ⟨o, ho, rfl⟩
    exact ⟨_, (mem_assignmentSpace_fullObs ht.dom.keys ho).inDom, rfl⟩
  · rintro ⟨a, ha, rfl⟩
    refine ⟨_, List.mem_of_getElem? (assignmentSpace_getElem? ha), sem_congr fun v hv => ?_⟩
    obtain ⟨st, hst⟩ := Dict.mem_keys.1 hv
    have hk : (Dict.keys (t.dom.map fun p => (p.1, a p.1))).Nodup := by
      have : Dict.keys (t.dom.map fun p => (p.1, a p.1)) = Dict.keys t.dom := by simp [Dict.keys, Function.comp_def]
      rw [this]; exact ht.dom.keys
    exact over_of_get? (Dict.get?_of_mem hk (List.mem_map.2 ⟨(v, st), hst, rfl⟩))

/-- What a restriction of one variable to some of its states gives. -/
structure Part (t : NumpyStore V S α) (v : V) (l : List S) (r : NumpyStore V S α) : Prop where
  wf : r.WF
  inside : ∀ a, InDom t.dom a → a v ∈ l → InDom r.dom a ∧ r.sem a = t.sem a
  outside : ∀ a, InDom r.dom a → ∃ b, InDom t.dom b ∧ r.sem a = t.sem b
  keys : ∀ w ∈ Dict.keys r.dom, w ∈ Dict.keys t.dom

theorem restrict_part {t : NumpyStore V S α} (ht : t.WF) {v : V} {st l : List S} (hv : (v, st) ∈ t.dom) (hl : l.Sublist st) (hne : l ≠ []) :
    ∃ r, t.restrictG [(v, .many l)] = .ok r ∧ Part t v l r ∧ (l.length < st.length → (cards r.dom).sum < (cards t.dom).sum) := by
  obtain ⟨d1, d2, hd⟩ := List.append_of_mem hv
  have hk := ht.dom.keys
  rw [hd] at hk
  simp only [Dict.keys_append, Dict.keys_cons] at hk
  have hv1 : v ∉ Dict.keys d1 := fun h => (List.nodup_append'.1 hk).2.2 h List.mem_cons_self
  have hv2 : v ∉ Dict.keys d2 := (List.nodup_cons.1 (List.nodup_append'.1 hk).2.1).1
  by_cases h2 : 2 ≤ l.length
  · obtain ⟨r, r1, r2, r3, r4⟩ := restrictG_one ht hd hl h2
    have hin : ∀ a, InDom r.dom a ↔ InDom t.dom a ∧ a v ∈ l := by
      intro a
      rw [r3, hd]
      constructor
      · intro h
        refine ⟨fun p hp => ?_, h (v, l) (by simp)⟩
        rcases List.mem_append.1 hp with hp | hp
        · exact h p (by simp [hp])
        · rcases List.mem_cons.1 hp with rfl | hp
          · exact hl.subset (h (v, l) (by simp))
          · exact h p (by simp [hp])
      · rintro ⟨h, h'⟩ p hp
        rcases List.mem_append.1 hp with hp | hp
        · exact h p (by simp [hp])
        · rcases List.mem_cons.1 hp with rfl | hp
          · exact h'
          · exact h p (by simp [hp])
    refine ⟨r, r1, ⟨r2, fun a ha hav => ?_, fun a ha => ⟨a, ((hin a).1 ha).1, r4 a ha⟩, fun w hw => ?_⟩, fun hlt => ?_⟩
    · have := (hin a).2 ⟨ha, hav⟩
      exact ⟨this, r4 a this⟩
    · rw [r3] at hw; rw [hd]; simpa [Dict.keys] using hw
    · rw [r3, hd]
      simp only [cards, List.map_append, List.map_cons, List.sum_append, List.sum_cons]
      omega
  · obtain ⟨x, rfl⟩ : ∃ x, l = [x] := by
      match l, hne, h2 with
      | [x], _, _ => exact ⟨x, rfl⟩
      | _ :: _ :: _, _, h => simp at h
    have hx : x ∈ st := hl.subset (by simp)
    have he : t.restrictG [(v, .many [x])] = t.restrict [(v, x)] := by
      have : restrictItem (S := S) [(v, ObsVal.many [x])] = restrictItem [(v, ObsVal.one x)] := by
        funext p
        by_cases e : v = p.1 <;> simp [restrictItem, Dict.get?, ObsVal.unwrap, e]
      rw [restrict, restrictG, restrictG, this]; rfl
    have hob : ObsOk t.dom [(v, x)] := by
      intro p hp s hs
      simp only [Dict.get?, List.find?] at hs
      by_cases e : v = p.1
      · simp [e] at hs
        subst hs
        have h1 := Dict.get?_of_mem ht.dom.keys (k := v) (v := st) hv
        have h2 := Dict.get?_of_mem ht.dom.keys (k := p.1) (v := p.2) hp
        rw [e, h2] at h1
        injection h1 with h1
        rw [h1]; exact hx
      · simp [e] at hs
    obtain ⟨r, r1, r2, r3, r4⟩ := restrict_ok ht hob
    have hdom : r.dom = d1 ++ d2 := by
      rw [r3, hd, List.filter_append, List.filter_cons]
      have f1 : d1.filter (fun p => p.1 ∉ Dict.keys [(v, x)]) = d1 := List.filter_eq_self.2 fun p hp => by
        have : p.1 ≠ v := by rintro rfl; exact hv1 (Dict.mem_keys_of_mem hp)
        simpa [Dict.keys] using this
      have f2 : d2.filter (fun p => p.1 ∉ Dict.keys [(v, x)]) = d2 := List.filter_eq_self.2 fun p hp => by
        have : p.1 ≠ v := by rintro rfl; exact hv2 (Dict.mem_keys_of_mem hp)
        simpa [Dict.keys] using this
      rw [f1, f2]
      simp [Dict.keys]
    refine ⟨r, by rw [he, r1], ⟨r2, fun a ha hav => ?_, fun a ha => ⟨over [(v, x)] a, ?_, r4 a ha⟩, fun w hw => ?_⟩, fun hlt => ?_⟩
    · have hi : InDom r.dom a := by
        rw [hdom]
        intro p hp
        refine ha p ?_
        rw [hd]
        rcases List.mem_append.1 hp with h | h <;> simp [h]
      refine ⟨hi, ?_⟩
      rw [r4 a hi]
      refine sem_congr fun w _ => ?_
      by_cases e : w = v
      · subst e
        have hav : a w = x := by simpa using hav
        rw [hav]
        exact over_of_get? (by simp [Dict.get?])
      · exact over_of_not_mem (by simpa [Dict.keys] using e)
    · intro p hp
      by_cases e : p.1 = v
      · have : (over [(v, x)] a : V → S) p.1 = x := over_of_get? (by simp [Dict.get?, e])
        rw [this]
        have h1 := Dict.get?_of_mem ht.dom.keys (k := v) (v := st) hv
        have h2 := Dict.get?_of_mem ht.dom.keys (k := p.1) (v := p.2) hp
        rw [e, h1] at h2
        injection h2 with h2
        rw [← h2]; exact hx
      · rw [over_of_not_mem (by simpa [Dict.keys] using e)]
        refine ha p ?_
        rw [hdom]
        rw [hd] at hp
        rcases List.mem_append.1 hp with h | h
        · simp [h]
        · rcases List.mem_cons.1 h with rfl | h
          · exact absurd rfl e
          · simp [h]
    · rw [hdom] at hw; rw [hd]
      simp only [Dict.keys, List.map_append, List.mem_append, List.map_cons, List.mem_cons] at hw ⊢
      tauto
    · rw [hdom, hd]
      simp only [cards, List.map_append, List.map_cons, List.sum_append, List.sum_cons]
      simp only [List.length_singleton] at hlt
      omega

end NumpyStore

namespace BTree

/-- A loop whose body sets the result for some elements and keeps it for the others: the last one that sets it counts. -/
theorem foldlM_last {X B : Type} {f : Option B → X → Py (Option B)} {q : X → Bool} {R : X → B → Prop} {l : List X}
    (h1 : ∀ x ∈ l, q x = true → ∃ y, R x y ∧ ∀ b, f b x = .ok (some y)) (h2 : ∀ x ∈ l, q x = false → ∀ b, f b x = .ok b) (b : Option B) :
    ((l.filter q).getLast? = none → l.foldlM f b = .ok b) ∧
    ∀ x, (l.filter q).getLast? = some x → ∃ y, R x y ∧ l.foldlM f b = .ok (some y) := by
  induction l generalizing b with
  | nil => exact ⟨fun _ => rfl, fun x hx => by simp at hx⟩
  | cons z l ih =>
    have ih := ih (fun x hx => h1 x (List.mem_cons_of_mem _ hx)) (fun x hx => h2 x (List.mem_cons_of_mem _ hx))
    rw [List.foldlM_cons, List.filter_cons]
    cases hq : q z with
    | false =>
      rw [h2 z List.mem_cons_self hq b]
      exact ih b
    | true =>
      obtain ⟨y, hy, hf⟩ := h1 z List.mem_cons_self hq
      rw [hf b, py_ok_bind, if_pos rfl]
      constructor
      · intro h; simp at h
      · intro x hx
        cases hl : (l.filter q).getLast? with
        | none =>
          have hn := List.getLast?_eq_none_iff.1 hl
          rw [hn] at hx
          simp at hx
          subst hx
          exact ⟨y, hy, (ih (some y)).1 hl⟩
        | some w =>
          have : x = w := by
            rw [List.getLast?_cons, hl] at hx
            simpa using hx.symm
          subst this
          exact (ih (some y)).2 x hl

variable [Inhabited K] [Field K] [LinearOrder K] [IsStrictOrderedRing K]

/-- No entry is negative. -/
def NonNeg (t : NumpyStore V S K) : Prop := ∀ a, InDom t.dom a → 0 ≤ t.sem a

theorem exists_inDom [Nonempty S] {d : Dom V S} (hd : DomOk d) : ∃ a, InDom d a := by
  refine ⟨fun v => ((Dict.get? d v).bind List.head?).getD (Classical.arbitrary S), fun p hp => ?_⟩
  have h := Dict.get?_of_mem hd.keys (k := p.1) (v := p.2) hp
  obtain ⟨x, l, e⟩ := List.exists_cons_of_ne_nil (hd.nonempty p hp)
  simp [h, e]

theorem allEqual_ok [Nonempty S] {t : NumpyStore V S K} (ht : t.WF) :
    (allEqual t = .ok true ∧ (∃ x l, t.valuesList = .ok (x :: l) ∧ ∀ a, InDom t.dom a → t.sem a = x)) ∨
    (allEqual t = .ok false ∧ ∃ a b, InDom t.dom a ∧ InDom t.dom b ∧ t.sem a ≠ t.sem b) := by
  have hv := NumpyStore.valuesList_ok ht
  have hm := fun x => NumpyStore.mem_values ht (x := x)
  obtain ⟨a, ha⟩ := exists_inDom ht.dom
  generalize (assignmentSpace t.dom).map (fun o => t.sem (asg o)) = l at hv hm
  cases l with
  | nil => exact absurd ((hm _).2 ⟨a, ha, rfl⟩) (by simp)
  | cons x l =>
    by_cases h : ∀ y ∈ l, y = x
    · left
      refine ⟨?_, x, l, hv, fun b hb => ?_⟩
      · rw [allEqual, hv]
        show Except.ok _ = _
        congr 1
        simpa using h
      · rcases List.mem_cons.1 ((hm _).2 ⟨b, hb, rfl⟩) with h' | h'
        · exact h'
        · exact h _ h'
    · right
      push_neg at h
      obtain ⟨y, hy, hne⟩ := h
      obtain ⟨b, hb, rfl⟩ := (hm y).1 (List.mem_cons_of_mem _ hy)
      obtain ⟨c, hc, rfl⟩ := (hm x).1 List.mem_cons_self
      refine ⟨?_, b, c, hb, hc, hne⟩
      rw [allEqual, hv]
      show Except.ok _ = _
      congr 1
      rw [List.all_eq_false]
      exact ⟨_, hy, by simpa using hne⟩

theorem sumAll_ok [Nonempty S] {t : NumpyStore V S K} (ht : t.WF) (hn : NonNeg t) :
    ∃ x, sumAll t = .ok x ∧ 0 ≤ x ∧ ((∃ a b, InDom t.dom a ∧ InDom t.dom b ∧ t.sem a ≠ t.sem b) → 0 < x) := by
  have hm := fun x => NumpyStore.mem_values ht (x := x)
  refine ⟨_, by rw [sumAll, NumpyStore.valuesList_ok ht]; rfl, ?_, ?_⟩
  · refine List.sum_nonneg fun x hx => ?_
    obtain ⟨a, ha, rfl⟩ := (hm x).1 hx
    exact hn a ha
  · rintro ⟨a, b, ha, hb, hne⟩
    have key : ∀ c, InDom t.dom c → t.sem c ≤ ((assignmentSpace t.dom).map fun o => t.sem (asg o)).sum := fun c hc =>
      List.single_le_sum (fun x hx => by
        obtain ⟨a, ha, rfl⟩ := (hm x).1 hx
        exact hn a ha) _ ((hm _).2 ⟨c, hc, rfl⟩)
    rcases lt_or_gt_of_ne hne with h | h
    · exact lt_of_lt_of_le (lt_of_le_of_lt (hn a ha) h) (key b hb)
    · exact lt_of_lt_of_le (lt_of_le_of_lt (hn b hb) h) (key a ha)

theorem infoAll_ok (log : K → K) {n : Nat} (hn : 0 < n) {x : K} (hx : 0 < x) : ∃ y, infoAll log n x = .ok (some y) := by
  rw [infoAll, if_neg hx.ne', pyLog, if_pos (div_pos (by exact_mod_cast hn) hx)]
  exact ⟨_, rfl⟩

theorem infoSide_ok (log : K → K) {n : Nat} (hn : 0 < n) (x : K) : ∃ y, infoSide log n x = .ok y := by
  rw [infoSide]
  split
  · rename_i hx
    rw [pyLog, if_pos (div_pos hx (by exact_mod_cast hn))]
    exact ⟨_, rfl⟩
  · exact ⟨_, rfl⟩

theorem NonNeg.part {t r : NumpyStore V S K} {v : V} {l : List S} (h : NonNeg t) (hp : NumpyStore.Part t v l r) : NonNeg r := by
  intro a ha
  obtain ⟨b, hb, e⟩ := hp.outside a ha
  rw [e]; exact h b hb

/-- What `_best_split_point` returns when it splits the variable `p.1` at `i` -/
structure IsSplit (t : NumpyStore V S K) (p : V × List S) (i : Nat) (b : Split V S K) : Prop where
  var : b.v = p.1
  left : b.left = p.2.take i
  leftPart : NumpyStore.Part t p.1 (p.2.take i) b.leftTable
  rightPart : NumpyStore.Part t p.1 (p.2.drop i) b.rightTable
  leftSize : (cards b.leftTable.dom).sum < (cards t.dom).sum
  rightSize : (cards b.rightTable.dom).sum < (cards t.dom).sum

theorem splitStep_ok [Nonempty S] (log : K → K) {t : NumpyStore V S K} (ht : t.WF) (hn : NonNeg t) {p : V × List S} (hp : p ∈ t.dom) {i : Nat}
    (h0 : 0 < i) (h1 : i < p.2.length) (y : K) :
    ∃ b, IsSplit t p i b ∧ ∀ best, splitStep log t p.1 p.2 (some y) none best i = .ok (some b) := by
  have hl1 : (p.2.take i).length = i := by rw [List.length_take]; omega
  have hl2 : (p.2.drop i).length = p.2.length - i := List.length_drop
  obtain ⟨lt, a1, a2, a3⟩ := NumpyStore.restrict_part ht (l := p.2.take i) hp (List.take_sublist _ _)
    (List.ne_nil_of_length_pos (by omega))
  obtain ⟨rt, b1, b2, b3⟩ := NumpyStore.restrict_part ht (l := p.2.drop i) hp (List.drop_sublist _ _)
    (List.ne_nil_of_length_pos (by omega))
  obtain ⟨sl, c1, _⟩ := sumAll_ok a2.wf (hn.part a2)
  obtain ⟨sr, d1, _⟩ := sumAll_ok b2.wf (hn.part b2)
  obtain ⟨il, e1⟩ := infoSide_ok log (n := (p.2.take i).length) (by omega) sl
  obtain ⟨ir, f1⟩ := infoSide_ok log (n := (p.2.drop i).length) (by omega) sr
  refine ⟨⟨p.1, p.2.take i, lt, rt⟩, ⟨rfl, rfl, a2, b2, a3 (by omega), b3 (by omega)⟩, fun best => ?_⟩
  simp only [splitStep, a1, b1, c1, d1, e1, f1, py_ok_bind]
  rfl

/-- The test for a variable that can be split -/
def splittable (p : V × List S) : Bool := decide (2 ≤ p.2.length)

/-- **The last split is chosen.** The loop keeps the last variable that has two states or more, split before its last state. -/
theorem bestSplit_ok [Nonempty S] (log : K → K) {t : NumpyStore V S K} (ht : t.WF) (hn : NonNeg t)
    (hne : ∃ a b, InDom t.dom a ∧ InDom t.dom b ∧ t.sem a ≠ t.sem b) {p : V × List S} (hp : (t.dom.filter splittable).getLast? = some p) :
    ∃ b, IsSplit t p (p.2.length - 1) b ∧ bestSplit log t = .ok (some b) := by
  obtain ⟨sum, s1, _, s3⟩ := sumAll_ok ht hn
  have s3 := s3 hne
  refine (foldlM_last (q := splittable) (R := fun p b => IsSplit t p (p.2.length - 1) b) ?_ ?_ none).2 p hp
  · intro p hp hq
    have hq : 2 ≤ p.2.length := by simpa [splittable] using hq
    obtain ⟨y, hy⟩ := infoAll_ok log (n := p.2.length) (by omega) s3
    have hlast : ((List.range' 1 (p.2.length - 1)).filter fun _ => true).getLast? = some (p.2.length - 1) := by
      rw [List.filter_true, List.getLast?_range', if_neg (by omega)]
      congr 1; omega
    have key := fun b => (foldlM_last (f := splitStep log t p.1 p.2 (some y) none) (q := fun _ => true) (R := fun i b => IsSplit t p i b)
      (l := List.range' 1 (p.2.length - 1))
      (fun i hi _ => by
        rw [List.mem_range'_1] at hi
        exact splitStep_ok log ht hn hp (by omega) (by omega) y) (fun _ _ h => by cases h) b).2 _ hlast
    obtain ⟨b, b1, b2⟩ := splitStep_ok log ht hn hp (i := p.2.length - 1) (by omega) (by omega) y
    refine ⟨b, b1, fun best => ?_⟩
    simp only [varStep, s1, hy, py_ok_bind]
    have hr : List.range' 1 (p.2.length - 1) = List.range' 1 (p.2.length - 2) ++ [p.2.length - 1] := by
      have : p.2.length - 1 = (p.2.length - 2) + 1 := by omega
      rw [this, List.range'_concat]
      congr 2; omega
    obtain ⟨mid, hmid⟩ : ∃ mid, (List.range' 1 (p.2.length - 2)).foldlM (splitStep log t p.1 p.2 (some y) none) best = .ok mid := by
      have h := foldlM_last (f := splitStep log t p.1 p.2 (some y) none) (q := fun _ => true) (R := fun i b => IsSplit t p i b)
        (l := List.range' 1 (p.2.length - 2))
        (fun i hi _ => by
          rw [List.mem_range'_1] at hi
          exact splitStep_ok log ht hn hp (by omega) (by omega) y) (fun _ _ h => by cases h) best
      cases hc : ((List.range' 1 (p.2.length - 2)).filter fun _ => true).getLast? with
      | none => exact ⟨_, h.1 hc⟩
      | some x => obtain ⟨y, _, hy⟩ := h.2 x hc; exact ⟨_, hy⟩
    rw [hr, List.foldlM_append, hmid, py_ok_bind, List.foldlM_cons, b2, py_ok_bind]
    rfl
  · intro p hp hq b
    have hq : p.2.length < 2 := by simpa [splittable] using hq
    have h1 : 0 < p.2.length := List.length_pos_iff.2 (ht.dom.nonempty p hp)
    obtain ⟨y, hy⟩ := infoAll_ok log (n := p.2.length) h1 s3
    simp only [varStep, s1, hy, py_ok_bind]
    have : p.2.length - 1 = 0 := by omega
    rw [this]; rfl

/-- A table with different entries has a variable that can be split. -/
theorem exists_splittable {t : NumpyStore V S K} (ht : t.WF) (hne : ∃ a b, InDom t.dom a ∧ InDom t.dom b ∧ t.sem a ≠ t.sem b) :
    ∃ p ∈ t.dom, (t.dom.filter splittable).getLast? = some p ∧ 2 ≤ p.2.length := by
  cases h : (t.dom.filter splittable).getLast? with
  | some p =>
    obtain ⟨h1, h2⟩ := List.mem_filter.1 (List.mem_of_getLast? h)
    exact ⟨p, h1, rfl, by simpa [splittable] using h2⟩
  | none =>
    exfalso
    obtain ⟨a, b, ha, hb, hne⟩ := hne
    refine hne (NumpyStore.sem_congr fun v hv => ?_)
    obtain ⟨st, hst⟩ := Dict.mem_keys.1 hv
    have hnil := List.getLast?_eq_none_iff.1 h
    have h2 := List.filter_eq_nil_iff.1 hnil _ hst
    have h1 := List.length_pos_iff.2 (ht.dom.nonempty _ hst)
    have h2 : st.length < 2 := by simpa [splittable] using h2
    obtain ⟨x, e⟩ := List.length_eq_one_iff.1 (show st.length = 1 by simp only at h1; omega)
    have e1 := ha _ hst
    have e2 := hb _ hst
    simp only [e, List.mem_singleton] at e1 e2
    rw [e1, e2]

theorem build_take (v : V) {st : List S} (hst : st.Nodup) {i : Nat} (h0 : 0 < i) (h1 : i < st.length) (l r : BTree V S K) :
    build v st l r (some (st.take i)) none none = .ok (.node v st i l r) := by
  have hl : (st.take i).getLast? = some st[i - 1] := by
    rw [List.getLast?_eq_getElem?, List.length_take, Nat.min_eq_left (by omega), List.getElem?_take, if_pos (by omega),
      List.getElem?_eq_getElem (by omega)]
  have hp : pointLeft st (st.take i) = .ok (i : Int) := by
    rw [pointLeft, hl]
    simp only [listIndex, List.getElem_mem, if_true, py_ok_bind, hst.idxOf_getElem]
    show Except.ok _ = _
    congr 1
    omega
  simp only [build, Option.toList, List.map_nil, List.mapM_cons, List.mapM_nil, hp, py_ok_bind, List.nil_append, List.append_nil]
  have : ¬ ((i : Int) < 1 ∨ (i : Int) ≥ st.length) := by omega
  have hdd : [(i : Int)].dedup = [(i : Int)] := rfl
  simp only [hdd, List.length_singleton, one_ne_zero, false_and, if_false, ne_eq, not_true_eq_false]
  show mkNode v st l r (i : Int) = _
  rw [mkNode, if_neg this]
  rfl

end BTree
end Verif
