import Verif.Learn.Data
import Verif.Factor.Rep

/-!
# Helper lemmas on frames and counts
-/

set_option linter.unusedSectionVars false
set_option linter.unusedSimpArgs false

namespace Verif

section
variable {V S : Type} [DecidableEq V] [DecidableEq S]

theorem filterData_ok {fr : Frame V S} {obs : Obs V S} (h : ∀ v ∈ Dict.keys obs, v ∈ fr.cols) :
    filterData fr obs = .ok ⟨fr.cols, fr.rows.filter fun r => obs.all fun p => Rec.eqAt r p.1 p.2⟩ := by
  induction obs generalizing fr with
  | nil => simp [filterData]
  | cons p obs ih =>
    rw [filterData, List.foldlM_cons, Frame.loc, if_pos (h p.1 (by simp [Dict.keys])), py_ok_bind]
    have := ih (fr := ⟨fr.cols, fr.rows.filter fun r => Rec.eqAt r p.1 p.2⟩)
      (fun v hv => h v (by simp only [Dict.keys, List.map_cons, List.mem_cons] at hv ⊢; exact Or.inr hv))
    rw [filterData] at this
    rw [this]
    simp only [List.filter_filter, List.all_cons, Bool.and_comm]

theorem val_select {vs : List V} (r : Rec V S) {v : V} (hv : v ∈ vs) :
    Rec.val (vs.map fun w => (w, Rec.val r w)) v = Rec.val r v := by
  have : Dict.get? (vs.map fun w => (w, Rec.val r w)) v = some (Rec.val r v) := by
    induction vs with
    | nil => cases hv
    | cons w vs ih =>
      rw [List.map_cons, Dict.get?]
      by_cases h : w = v
      · simp [h]
      · simp only [h, if_false]
        exact ih ((List.mem_cons.1 hv).resolve_left (Ne.symm h))
  conv_lhs => rw [Rec.val, this]
  rfl

theorem eqAt_select {vs : List V} (r : Rec V S) {v : V} (hv : v ∈ vs) (s : S) :
    Rec.eqAt (vs.map fun w => (w, Rec.val r w)) v s = Rec.eqAt r v s := by
  rw [Rec.eqAt, val_select r hv, Rec.eqAt]

/-- Each record is counted for the tuples it agrees with. -/
theorem sum_countP {X Y : Type} (rows : List X) (ks : List Y) (P : X → Y → Bool) (hk : ks.Nodup)
    (hP : ∀ r ∈ rows, ∀ k ∈ ks, ∀ k' ∈ ks, P r k = true → P r k' = true → k = k') :
    (ks.map fun k => rows.countP fun r => P r k).sum = rows.countP fun r => ks.any (P r) := by
  induction ks with
  | nil => simp
  | cons k ks ih =>
    rw [List.map_cons, List.sum_cons, ih hk.of_cons fun r hr k1 h1 k2 h2 =>
      hP r hr k1 (List.mem_cons_of_mem _ h1) k2 (List.mem_cons_of_mem _ h2)]
    have hn := (List.nodup_cons.1 hk).1
    clear ih
    induction rows with
    | nil => simp
    | cons r rows ih =>
      have ih := ih fun r hr => hP r (List.mem_cons_of_mem _ hr)
      simp only [List.countP_cons, List.any_cons] at ih ⊢
      by_cases h1 : P r k = true
      · have h2 : ks.any (P r) = false := by
          rw [Bool.eq_false_iff]
          intro h
          obtain ⟨k', hk', h⟩ := List.any_eq_true.1 h
          exact hn (hP r List.mem_cons_self k List.mem_cons_self k' (List.mem_cons_of_mem _ hk') h1 h ▸ hk')
        simp only [h1, h2, if_true, Bool.true_or]
        simp
        omega
      · by_cases h2 : ks.any (P r) = true
        · simp only [h2, if_true, Bool.or_true]
          simp only [h1]; simp; omega
        · simp only [h1, h2]; simp; omega

theorem le_sum_countP {X Y : Type} (rows : List X) (ks : List Y) (P : X → Y → Bool) :
    (rows.countP fun r => ks.any (P r)) ≤ (ks.map fun k => rows.countP fun r => P r k).sum := by
  induction ks with
  | nil => simp
  | cons k ks ih =>
    rw [List.map_cons, List.sum_cons]
    refine Nat.le_trans ?_ (Nat.add_le_add_left ih _)
    clear ih
    induction rows with
    | nil => simp
    | cons r rows ih =>
      simp only [List.countP_cons, List.any_cons] at ih ⊢
      by_cases h1 : P r k = true
      · by_cases h2 : ks.any (P r) = true
        · simp only [h1, h2, if_true, Bool.or_true]; omega
        · simp only [h1, h2, if_true, Bool.true_or]; simp; omega
      · by_cases h2 : ks.any (P r) = true
        · simp only [h1, h2, if_true, Bool.or_true]; simp; omega
        · simp only [h1, h2]; simp; omega

theorem stateSpace_getElem? {d : Dom V S} {a : V → S} (ha : InDom d a) :
    (stateSpace d)[ravel (cards d) (coords d a)]? = some ((Dict.keys d).map a) := by
  have hm : List.Forall₂ (fun x l => x ∈ l) (d.map fun p => a p.1) (d.map Prod.snd) := by
    rw [List.forall₂_map_left_iff, List.forall₂_map_right_iff, List.forall₂_same]
    exact ha
  have := product_getElem? hm
  rw [stateSpace]
  have e1 : ravel (cards d) (coords d a) = ravel ((d.map Prod.snd).map List.length)
      (List.zipWith (fun x (l : List S) => l.idxOf x) (d.map fun p => a p.1) (d.map Prod.snd)) := by
    congr 1
    · simp [cards]
    · rw [List.zipWith_map, coords, List.zipWith_self]
  rw [e1, this]
  simp [Dict.keys, Function.comp_def]

theorem nanDomains_ok {N : NanName S} {fr : Frame V S} {d : Dom V S} (h : ∀ p ∈ d, fr.hasNa p.1 = false) :
    nanDomains N fr d = .ok d := by
  have := mapM_ok (f := fun p : V × List S => if fr.hasNa p.1 then
      if p.2.all N.isStr then (.ok (p.1, p.2 ++ [N.nan]) : Py (V × List S)) else .error .valueError
    else .ok p) (g := id) (l := d) (fun p hp => by simp [h p hp])
  rw [nanDomains, this, List.map_id]

theorem eqMap_iff {vs : List V} {r : Rec V S} {k : V → S} :
    (vs.map (Rec.val r) == (vs.map k).map some) = true ↔ ∀ v ∈ vs, Rec.val r v = some (k v) := by
  rw [beq_iff_eq, List.map_map]
  exact List.map_inj_left

end

section
variable {V S K : Type} [DecidableEq V] [DecidableEq S] [Field K] [LinearOrder K]

/-- The record has, for the variables of `d`, states of `d`. -/
def Rec.within (d : Dom V S) (r : Rec V S) : Bool := d.all fun p => p.2.any fun s => Rec.eqAt r p.1 s

theorem any_stateSpace {d : Dom V S} (r : Rec V S) :
    ((stateSpace d).any fun k => (Dict.keys d).map (Rec.val r) == k.map some) = Rec.within d r := by
  rw [Bool.eq_iff_iff, List.any_eq_true, Rec.within, List.all_eq_true]
  simp only [stateSpace, mem_product, beq_iff_eq, List.any_eq_true, Rec.eqAt]
  induction d with
  | nil => simp [Dict.keys]
  | cons p d ih =>
    simp only [Dict.keys, List.map_cons, List.forall_mem_cons]
    rw [← ih]
    constructor
    · rintro ⟨k, hk, h⟩
      cases hk with
      | @cons x _ xs _ hx hxs =>
        simp only [List.map_cons, List.cons.injEq] at h
        exact ⟨⟨x, hx, h.1⟩, xs, hxs, h.2⟩
    · rintro ⟨⟨x, hx, h1⟩, xs, hxs, h2⟩
      exact ⟨x :: xs, .cons hx hxs, by simp only [List.map_cons, List.cons.injEq]; exact ⟨h1, h2⟩⟩

theorem toCounts_sum {fr : Frame V S} {d : Dom V S} (hd : DomOk d) :
    ((stateSpace d).map (fr.count (Dict.keys d))).sum = fr.rows.countP (Rec.within d) := by
  have h := sum_countP fr.rows (stateSpace d) (fun r k => (Dict.keys d).map (Rec.val r) == k.map some)
    (nodup_product (by simpa using fun p s hp => hd.states (s, p) hp)) (fun r _ k _ k' _ h1 h2 => by
      rw [beq_iff_eq] at h1 h2
      exact List.map_injective_iff.2 (Option.some_injective _) (h1.symm.trans h2))
  simp only [any_stateSpace] at h
  exact h

/-- The value of `to_counts(d, fr, normalize=True)` for data without missing values. -/
theorem toCounts_norm {N : NanName S} {I : StoreImpl V S (Fl K)} (hI : I.Lawful) {d : Dom V S} {fr : Frame V S}
    (hd : DomOk d) (hne : d ≠ []) (hc : ∀ v ∈ Dict.keys d, v ∈ fr.cols)
    (hna : ∀ r ∈ fr.rows, ∀ v ∈ Dict.keys d, Rec.val r v ≠ none) :
    (fr.rows.countP (Rec.within d) = 0 → toCounts N I d fr true = .error .zeroDivision) ∧
    (fr.rows.countP (Rec.within d) ≠ 0 → ∃ f, toCounts N I d fr true = .ok f ∧ f.WF ∧ f.dom = d ∧ f.rightVars = [] ∧
      ∀ a, InDom d a → f.sem a = .fin
        ((fr.rows.countP fun r => (Dict.keys d).all fun v => Rec.eqAt r v (a v) : ℕ) / (fr.rows.countP (Rec.within d) : ℕ) : K)) := by
  set fs : Frame V S := ⟨Dict.keys d, fr.rows.map fun r => (Dict.keys d).map fun v => (v, Rec.val r v)⟩ with hfs
  have h1 : fr.select (Dict.keys d) = .ok fs := by rw [Frame.select, if_pos hc]
  have h2 : nanDomains N fs d = .ok d := by
    apply nanDomains_ok
    intro p hp
    rw [Frame.hasNa, Bool.eq_false_iff]
    intro h
    obtain ⟨r, hr, h⟩ := List.any_eq_true.1 h
    obtain ⟨r0, hr0, rfl⟩ := List.mem_map.1 hr
    have hk := Dict.mem_keys_of_mem hp
    rw [val_select _ hk] at h
    exact hna r0 hr0 _ hk (Option.isNone_iff_eq_none.1 h)
  have h3 : d.isEmpty = false := by cases d with | nil => exact absurd rfl hne | cons => rfl
  have hw : fs.rows.countP (Rec.within d) = fr.rows.countP (Rec.within d) := by
    simp only [hfs, List.countP_map]
    congr 1
    funext r
    simp only [Function.comp, Rec.within]
    rw [Bool.eq_iff_iff, List.all_eq_true, List.all_eq_true]
    refine forall₂_congr fun p hp => ?_
    simp only [eqAt_select r (Dict.mem_keys_of_mem hp)]
  have hs := toCounts_sum (fr := fs) hd
  rw [hw] at hs
  have hne2 : (stateSpace d).map (fs.count (Dict.keys d)) ≠ [] := by
    intro h
    rw [List.map_eq_nil_iff] at h
    have hl := congrArg List.length h
    rw [stateSpace, length_product, List.length_nil, List.prod_eq_zero_iff] at hl
    simp only [List.map_map, List.mem_map, Function.comp] at hl
    obtain ⟨p, hp, hl⟩ := hl
    exact hd.nonempty p hp (List.length_eq_zero_iff.1 hl)
  constructor
  · intro h0
    simp only [toCounts, h1, py_ok_bind, h3, h2, hs, h0, hne2, if_true, ne_eq, not_false_eq_true, and_self]
    rfl
  · intro h0
    obtain ⟨f, hf, hwf, hfd, hr, hsem⟩ := Factor.make_ok hI
      (values := ((stateSpace d).map (fs.count (Dict.keys d))).map fun c : ℕ => Fl.fin ((c : K) / (fr.rows.countP (Rec.within d) : ℕ)))
      (left := none) (right := none) (r := []) hd
      (by simp [stateSpace, length_product, cards, Function.comp_def]) rfl
    refine ⟨f, ?_, hwf, hfd, hr, fun a ha => ?_⟩
    · simp only [toCounts, h1, py_ok_bind, h3, h2, hs, h0, if_true]
      exact hf
    · rw [hsem a ha, List.getD_eq_getElem?_getD, List.getElem?_map, List.getElem?_map, stateSpace_getElem? ha]
      simp only [Option.map_some, Option.getD_some]
      congr 3
      simp only [Frame.count, hfs, List.countP_map]
      congr 1
      funext r
      rw [Bool.eq_iff_iff, Function.comp, eqMap_iff, List.all_eq_true]
      refine forall₂_congr fun v hv => ?_
      rw [val_select r hv, Rec.eqAt, beq_iff_eq]

/-- Summing counts over the states of some of the variables forgets these variables. -/
theorem sumOver_count {D : V → List S} {rows : List (Rec V S)} {W xs : List V} (hx : ∀ x ∈ xs, x ∈ W) (hn : xs.Nodup)
    (hD : ∀ x ∈ xs, (D x).Nodup) (hr : ∀ r ∈ rows, ∀ x ∈ xs, ∃ s ∈ D x, Rec.val r x = some s) (n : K) (a : V → S) :
    sumOver D xs (fun a => ((rows.countP fun r => W.all fun v => Rec.eqAt r v (a v) : ℕ) : K) / n) a =
      ((rows.countP fun r => (W.filter (· ∉ xs)).all fun v => Rec.eqAt r v (a v) : ℕ) : K) / n := by
  induction xs generalizing a with
  | nil => simp [sumOver]
  | cons x xs ih =>
    have hxs := (List.nodup_cons.1 hn).1
    simp only [sumOver]
    rw [List.map_congr_left fun s _ => ih (fun y hy => hx y (List.mem_cons_of_mem _ hy)) hn.of_cons
      (fun y hy => hD y (List.mem_cons_of_mem _ hy)) (fun r hr' y hy => hr r hr' y (List.mem_cons_of_mem _ hy)) (upd a x s)]
    simp only [div_eq_mul_inv]
    rw [List.sum_map_mul_right, ]
    congr 1
    have h := sum_countP rows (D x) (fun r s => (W.filter (· ∉ xs)).all fun v => Rec.eqAt r v (upd a x s v))
      (hD x List.mem_cons_self) (fun r _ s _ s' _ h1 h2 => by
        have hm : x ∈ W.filter (· ∉ xs) := List.mem_filter.2 ⟨hx x List.mem_cons_self, by simpa using hxs⟩
        have e1 := List.all_eq_true.1 h1 x hm
        have e2 := List.all_eq_true.1 h2 x hm
        simp only [Rec.eqAt, beq_iff_eq, upd, if_true] at e1 e2
        exact Option.some.inj (e1.symm.trans e2))
    have h' := congrArg (Nat.cast (R := K)) h
    rw [← Nat.coe_castAddMonoidHom, map_list_sum, List.map_map] at h'
    refine h'.trans (congrArg _ (List.countP_congr fun r hr' => ?_))
    rw [List.any_eq_true, List.all_eq_true]
    obtain ⟨s, hs, hv⟩ := hr r hr' x List.mem_cons_self
    constructor
    · rintro ⟨s, _, h⟩ v hv
      obtain ⟨hv1, hv2⟩ := List.mem_filter.1 hv
      simp only [List.mem_cons, not_or, decide_eq_true_eq] at hv2
      have := List.all_eq_true.1 h v (List.mem_filter.2 ⟨hv1, by simpa using hv2.2⟩)
      rwa [upd, if_neg hv2.1] at this
    · intro h
      refine ⟨s, hs, List.all_eq_true.2 fun v hv' => ?_⟩
      obtain ⟨hv1, hv2⟩ := List.mem_filter.1 hv'
      by_cases e : v = x
      · subst e; simp [Rec.eqAt, upd, hv]
      · rw [upd, if_neg e]
        exact h v (List.mem_filter.2 ⟨hv1, by simpa [e] using hv2⟩)

end

/-! ### Distinct observations -/

section
variable {V S : Type} [DecidableEq V] [DecidableEq S]

theorem obsEq_iff {d1 d2 : Obs V S} : obsEq d1 d2 = true ↔ ∀ k, Dict.get? d1 k = Dict.get? d2 k := by
  rw [obsEq, Bool.and_eq_true, decide_eq_true_eq, List.all_eq_true]
  simp only [beq_iff_eq]
  constructor
  · rintro ⟨⟨h1, h2⟩, h⟩ k
    by_cases hk : k ∈ Dict.keys d1
    · exact h k hk
    · rw [Dict.get?_eq_none.2 hk, Dict.get?_eq_none.2 fun h => hk (h2 k h)]
  · intro h
    have : ∀ k, k ∈ Dict.keys d1 ↔ k ∈ Dict.keys d2 := by
      intro k
      rw [← Dict.get?_isSome, ← Dict.get?_isSome, h k]
    exact ⟨⟨fun k hk => (this k).1 hk, fun k hk => (this k).2 hk⟩, fun k _ => h k⟩

/-- Nothing before position `i` is the same observation. -/
def firstAt (l : List (Obs V S)) (i : Nat) : Bool :=
  !((List.range i).reverse.any fun j => obsEq (l.getD i []) (l.getD j []))

theorem firstAt_iff {l : List (Obs V S)} {i : Nat} :
    firstAt l i = true ↔ ∀ j < i, ¬ ∀ k, Dict.get? (l.getD i []) k = Dict.get? (l.getD j []) k := by
  rw [firstAt, Bool.not_eq_true', Bool.eq_false_iff, ne_eq, List.any_eq_true]
  simp only [List.mem_reverse, List.mem_range, obsEq_iff, not_exists, not_and]

theorem uniqLoop (l : List (Obs V S)) (k : Nat) (R : List Nat) :
    ((List.range' 1 k).reverse).foldl (uniqStep l) (List.range (k + 1) ++ R) =
      (List.range (k + 1)).filter (firstAt l) ++ R := by
  induction k generalizing R with
  | zero => simp [firstAt]
  | succ k ih =>
    rw [List.range'_concat, List.reverse_append, List.reverse_cons, List.reverse_nil, List.nil_append,
      List.singleton_append, List.foldl_cons]
    have e : 1 + 1 * k = k + 1 := by omega
    rw [e, List.range_succ (n := k + 1), List.filter_append, List.append_assoc, List.append_assoc]
    have h : uniqStep l (List.range (k + 1) ++ ([k + 1] ++ R)) (k + 1) =
        List.range (k + 1) ++ ([k + 1].filter (firstAt l) ++ R) := by
      rw [uniqStep]
      by_cases hf : firstAt l (k + 1) = true
      · have : ((List.range (k + 1)).reverse.any fun j => obsEq (l.getD (k + 1) []) (l.getD j [])) = false := by
          rw [firstAt] at hf; simpa only [Bool.not_eq_true'] using hf
        rw [this]; simp [hf]
      · have : ((List.range (k + 1)).reverse.any fun j => obsEq (l.getD (k + 1) []) (l.getD j [])) = true := by
          rw [firstAt] at hf; simpa only [Bool.not_eq_true, Bool.not_eq_false'] using hf
        rw [this, if_pos rfl, List.eraseIdx_append_of_length_le (by simp)]
        simp [hf]
    rw [h, ih]

/-- `__obs_unique` keeps the positions of first occurrences. -/
theorem obsUnique_eq (l : List (Obs V S)) :
    obsUnique l = ((List.range l.length).filter (firstAt l)).map fun i => l.getD i [] := by
  cases l with
  | nil => rfl
  | cons x l =>
    have := uniqLoop (x :: l) l.length []
    rw [List.append_nil, List.append_nil] at this
    rw [obsUnique, List.length_cons, Nat.add_sub_cancel, this]

theorem mem_obsUnique {l : List (Obs V S)} {d : Obs V S} (h : d ∈ obsUnique l) : d ∈ l := by
  rw [obsUnique_eq] at h
  obtain ⟨i, hi, rfl⟩ := List.mem_map.1 h
  have hi := List.mem_range.1 (List.mem_filter.1 hi).1
  have e : l.getD i [] = l[i] := by simp [hi]
  rw [e]
  exact List.getElem_mem hi

theorem obsUnique_complete {l : List (Obs V S)} {d : Obs V S} (h : d ∈ l) :
    ∃ d' ∈ obsUnique l, ∀ k, Dict.get? d' k = Dict.get? d k := by
  obtain ⟨i, hi, rfl⟩ := List.mem_iff_getElem.1 h
  have hex : ∃ j, j < l.length ∧ ∀ k, Dict.get? (l.getD j []) k = Dict.get? l[i] k :=
    ⟨i, hi, fun k => by simp [hi]⟩
  classical
  have hs := Nat.find_spec hex
  refine ⟨l.getD (Nat.find hex) [], ?_, hs.2⟩
  rw [obsUnique_eq]
  refine List.mem_map.2 ⟨_, List.mem_filter.2 ⟨List.mem_range.2 hs.1, firstAt_iff.2 fun j hj heq => ?_⟩, rfl⟩
  exact Nat.find_min hex hj ⟨Nat.lt_trans hj hs.1, fun k => by rw [← heq k, hs.2 k]⟩

theorem obsUnique_distinct (l : List (Obs V S)) :
    (obsUnique l).Pairwise fun d d' => ¬ ∀ k, Dict.get? d k = Dict.get? d' k := by
  rw [obsUnique_eq, List.pairwise_map]
  have hp : ((List.range l.length).filter (firstAt l)).Pairwise (· < ·) :=
    List.Pairwise.filter _ List.pairwise_lt_range
  refine hp.imp_of_mem fun {i j} hi hj hlt h => ?_
  exact firstAt_iff.1 (List.mem_filter.1 hj).2 i hlt fun k => (h k).symm

theorem mem_dropDup {X : Type} [DecidableEq X] {l : List X} {x : X} : x ∈ dropDup l ↔ x ∈ l := by
  induction l with
  | nil => simp [dropDup]
  | cons y l ih =>
    simp only [dropDup, List.mem_cons, List.mem_filter, ih, decide_eq_true_eq]
    by_cases h : x = y <;> simp [h]

/-! ### Observation patterns -/

theorem rec_eq {cols : List V} (hn : cols.Nodup) {r : Rec V S} (hk : Dict.keys r = cols) :
    r = cols.map fun v => (v, Rec.val r v) := by
  subst hk
  rw [Dict.keys, List.map_map]
  conv_lhs => rw [← List.map_id r]
  refine List.map_congr_left fun p hp => ?_
  rw [id, Function.comp, Rec.val, Dict.get?_of_mem (k := p.1) (v := p.2) hn hp]
  rfl

theorem observed_eq {cols : List V} (hn : cols.Nodup) {r : Rec V S} (hk : Dict.keys r = cols) :
    Rec.observed r = cols.filter fun v => (Rec.val r v).isSome := by
  conv_lhs => rw [rec_eq hn hk]
  rw [Rec.observed, List.filter_map, List.map_map]
  simp [Function.comp_def]

theorem dsepFilter_eq {cols : List V} (hn : cols.Nodup) {r : Rec V S} (hk : Dict.keys r = cols) (g : DiGraph V) (t : V) :
    dsepFilter g t r = (cols.filter (· ∈ t :: g.dconNodes t (Rec.observed r))).filterMap
      fun v => (Rec.val r v).map fun s => (v, s) := by
  have h : ∀ con : List V, (r.filter fun p => p.1 ∈ con).filterMap (fun p => p.2.map fun s => (p.1, s)) =
      (cols.filter (· ∈ con)).filterMap fun v => (Rec.val r v).map fun s => (v, s) := by
    intro con
    conv_lhs => rw [rec_eq hn hk]
    rw [List.filter_map, List.filterMap_map]
    rfl
  exact h _

theorem mem_dsepFilter {cols : List V} (hn : cols.Nodup) {r : Rec V S} (hk : Dict.keys r = cols) {g : DiGraph V} {t : V}
    {p : V × S} : p ∈ dsepFilter g t r ↔ p.1 ∈ cols ∧ p.1 ∈ t :: g.dconNodes t (Rec.observed r) ∧ Rec.val r p.1 = some p.2 := by
  rw [dsepFilter_eq hn hk, List.mem_filterMap]
  constructor
  · rintro ⟨v, hv, h⟩
    obtain ⟨h1, h2⟩ := List.mem_filter.1 hv
    rw [Option.map_eq_some_iff] at h
    obtain ⟨s, hs, rfl⟩ := h
    exact ⟨h1, by simpa using h2, hs⟩
  · rintro ⟨h1, h2, h3⟩
    exact ⟨p.1, List.mem_filter.2 ⟨h1, by simpa using h2⟩, by rw [h3]; rfl⟩

theorem keys_dsepFilter_nodup {cols : List V} (hn : cols.Nodup) {r : Rec V S} (hk : Dict.keys r = cols) (g : DiGraph V) (t : V) :
    (Dict.keys (dsepFilter g t r)).Nodup := by
  rw [dsepFilter_eq hn hk, Dict.keys]
  have : ∀ l : List V, l.Nodup → ((l.filterMap fun v => (Rec.val r v).map fun s => (v, s)).map Prod.fst).Sublist l := by
    intro l _
    induction l with
    | nil => simp
    | cons v l ih =>
      rw [List.filterMap_cons]
      cases Rec.val r v with
      | none => exact (ih (by rename_i h; exact h.of_cons)).trans (List.sublist_cons_self _ _)
      | some s => exact (ih (by rename_i h; exact h.of_cons)).cons_cons v
  exact (this _ (hn.filter _)).nodup (hn.filter _)

end
end Verif
