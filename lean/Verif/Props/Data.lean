import Verif.Learn.DataLemmas
import Verif.Props.ExNet

/-!
# Inference from data and distinct observations (C48, C57, C60)
-/

set_option linter.unusedSectionVars false
set_option linter.unusedSimpArgs false

namespace Verif.Props
open Verif

/-! ### Specification: counting records -/

section
variable {V S : Type} [DecidableEq V] [DecidableEq S]

/-- The record has the values of the observation. -/
def Agrees (r : Rec V S) (o : Obs V S) : Prop := ∀ p ∈ o, (p.1, some p.2) ∈ r

/-- The record has, in the columns `T`, the values that `a` gives. -/
def AgreesOn (r : Rec V S) (T : List V) (a : V → S) : Prop := ∀ t ∈ T, (t, some (a t)) ∈ r

instance (r : Rec V S) (o : Obs V S) : Decidable (Agrees r o) := by unfold Agrees; infer_instance
instance (r : Rec V S) (T : List V) (a : V → S) : Decidable (AgreesOn r T a) := by unfold AgreesOn; infer_instance

/-- The number of records with a property. -/
def numRows (fr : Frame V S) (P : Rec V S → Prop) [DecidablePred P] : Nat := (fr.rows.filter fun r => P r).length

/-- A query for which frequencies make sense: columns exist, targets have a domain, and the records that agree with
the evidence have in the target columns states of the domains. -/
structure LaplaceOk (o : Laplace V S) (T : List V) (ev : Obs V S) : Prop where
  wf : o.data.WF
  dom : DomOk o.domains
  nonempty : T ≠ []
  nodup : T.Nodup
  tdom : ∀ t ∈ T, t ∈ Dict.keys o.domains
  tcols : ∀ t ∈ T, t ∈ o.data.cols
  ecols : ∀ v ∈ Dict.keys ev, v ∈ o.data.cols
  disj : ∀ t ∈ T, t ∉ Dict.keys ev
  complete : ∀ r ∈ o.data.rows, Agrees r ev → ∀ p ∈ o.domains, p.1 ∈ T → ∃ s ∈ p.2, (p.1, some s) ∈ r

theorem mem_iff_val {cols : List V} (hn : cols.Nodup) {r : Rec V S} (hk : Dict.keys r = cols) {v : V} {s : S} :
    (v, some s) ∈ r ↔ Rec.val r v = some s := by
  constructor
  · intro h
    rw [Rec.val, Dict.get?_of_mem (k := v) (v := some s) (by rw [hk]; exact hn) h]; rfl
  · intro h
    rw [Rec.val] at h
    cases hg : Dict.get? r v with
    | none => rw [hg] at h; cases h
    | some x => rw [hg] at h; exact Dict.mem_of_get? (by rw [hg]; exact congrArg some h)

theorem agrees_iff {cols : List V} (hn : cols.Nodup) {r : Rec V S} (hk : Dict.keys r = cols) (o : Obs V S) :
    (o.all fun p => Rec.eqAt r p.1 p.2) = true ↔ Agrees r o := by
  rw [List.all_eq_true]
  refine forall₂_congr fun p _ => ?_
  rw [Rec.eqAt, beq_iff_eq, mem_iff_val hn hk]

theorem agreesOn_iff {cols : List V} (hn : cols.Nodup) {r : Rec V S} (hk : Dict.keys r = cols) (T : List V) (a : V → S) :
    (T.all fun v => Rec.eqAt r v (a v)) = true ↔ AgreesOn r T a := by
  rw [List.all_eq_true]
  refine forall₂_congr fun p _ => ?_
  rw [Rec.eqAt, beq_iff_eq, mem_iff_val hn hk]

/-- The frame that is counted. -/
theorem lap_frame {o : Laplace V S} {T : List V} {ev : Obs V S} (hn : T.Nodup) (ht : ∀ t ∈ T, t ∈ o.data.cols)
    (he : ∀ v ∈ Dict.keys ev, v ∈ o.data.cols) (hd : ∀ t ∈ T, t ∉ Dict.keys ev) :
    ∃ fr1 fr2, o.compile T ev = .ok fr1 ∧ filterData fr1 ev = .ok fr2 ∧ (∀ t ∈ T, t ∈ fr2.cols) ∧
      ∃ φ : Rec V S → Rec V S, fr2.rows = (o.data.rows.filter fun r => ev.all fun p => Rec.eqAt r p.1 p.2).map φ ∧
        ∀ r, ∀ v ∈ T, Rec.val (φ r) v = Rec.val r v := by
  have hc : ∀ v ∈ T ++ Dict.keys ev, v ∈ o.data.cols := by
    intro v hv
    rcases List.mem_append.1 hv with h | h
    · exact ht v h
    · exact he v h
  rw [Laplace.compile, if_neg (not_not.2 hn), if_neg (not_not.2 hd)]
  by_cases hp : o.preprocess = true
  · refine ⟨⟨T ++ Dict.keys ev, o.data.rows.map fun r => (T ++ Dict.keys ev).map fun v => (v, Rec.val r v)⟩, _,
      by rw [if_pos hp, Frame.select, if_pos hc], filterData_ok fun v hv => List.mem_append_right _ hv,
      fun t h => List.mem_append_left _ h, fun r => (T ++ Dict.keys ev).map fun v => (v, Rec.val r v), ?_,
      fun r v hv => val_select r (List.mem_append_left _ hv)⟩
    simp only [List.filter_map]
    congr 1
    refine List.filter_congr fun r _ => ?_
    rw [Function.comp, Bool.eq_iff_iff, List.all_eq_true, List.all_eq_true]
    refine forall₂_congr fun p hp => ?_
    rw [eqAt_select r (List.mem_append_right _ (Dict.mem_keys_of_mem hp))]
  · exact ⟨o.data, _, by rw [if_neg hp], filterData_ok he, ht, id, by rw [List.map_id], fun _ _ _ => rfl⟩

end

section
variable {V S K : Type} [DecidableEq V] [DecidableEq S] [Nonempty S] [Field K] [LinearOrder K]

theorem keys_filter_mem (d : Dom V S) (T : List V) : Dict.keys (d.filter fun p => p.1 ∈ T) = (Dict.keys d).filter (· ∈ T) :=
  Dict.keys_filter_key d (fun v => v ∈ T)

theorem domOk_filter {d : Dom V S} (hd : DomOk d) (P : V × List S → Bool) : DomOk (d.filter P) :=
  ⟨hd.keys.sublist (List.filter_sublist.map _), fun p hp => hd.states p (List.mem_filter.1 hp).1,
    fun p hp => hd.nonempty p (List.mem_filter.1 hp).1⟩

/-- The query, in terms of the records that agree with the evidence and are within the domains. -/
theorem lap_query {N : NanName S} {I : StoreImpl V S (Fl K)} (hI : I.Lawful) {o : Laplace V S} {T : List V} {ev : Obs V S}
    (hdom : DomOk o.domains) (hne : T ≠ []) (hn : T.Nodup) (htd : ∀ t ∈ T, t ∈ Dict.keys o.domains)
    (ht : ∀ t ∈ T, t ∈ o.data.cols) (he : ∀ v ∈ Dict.keys ev, v ∈ o.data.cols) (hd : ∀ t ∈ T, t ∉ Dict.keys ev)
    {rows : List (Rec V S)} (hrows : rows = o.data.rows.filter fun r => ev.all fun p => Rec.eqAt r p.1 p.2)
    (hc : ∀ r ∈ rows, ∀ t ∈ T, Rec.val r t ≠ none)
    {d : Dom V S} (hdd : d = o.domains.filter fun p => p.1 ∈ T) :
    (rows.countP (Rec.within d) = 0 → o.query N I T ev = .error .zeroDivision) ∧
    (rows.countP (Rec.within d) ≠ 0 → ∃ f, o.query N I T ev = .ok f ∧ f.WF ∧ f.dom = d ∧ f.rightVars = [] ∧
      ∀ a, InDom d a → f.sem a = .fin
        ((rows.countP fun r => (Dict.keys d).all fun v => Rec.eqAt r v (a v) : ℕ) / (rows.countP (Rec.within d) : ℕ) : K)) := by
  obtain ⟨fr1, fr2, h1, h2, h3, φ, h4, h5⟩ := lap_frame hn ht he hd
  rw [← hrows] at h4
  have hk : ∀ v ∈ Dict.keys d, v ∈ T := by
    intro v hv
    rw [hdd, keys_filter_mem] at hv
    simpa using (List.mem_filter.1 hv).2
  have hdne : d ≠ [] := by
    obtain ⟨t, ht⟩ := List.exists_mem_of_ne_nil T hne
    intro h
    have : t ∈ Dict.keys d := by
      rw [hdd, keys_filter_mem]; exact List.mem_filter.2 ⟨htd t ht, by simpa using ht⟩
    rw [h] at this; cases this
  have hd' : DomOk d := by rw [hdd]; exact domOk_filter hdom _
  have key := toCounts_norm (K := K) (N := N) (I := I) hI (fr := fr2) hd' hdne (fun v hv => h3 v (hk v hv)) (by
    intro r hr v hv
    rw [h4] at hr
    obtain ⟨r0, hr0, rfl⟩ := List.mem_map.1 hr
    rw [h5 r0 v (hk v hv)]
    exact hc r0 hr0 v (hk v hv))
  have hq : o.query N I T ev = toCounts N I d fr2 true := by
    simp only [Laplace.query, Laplace.run, h1, py_ok_bind, h2, ← hdd]
  have e1 : fr2.rows.countP (Rec.within d) = rows.countP (Rec.within d) := by
    rw [h4, List.countP_map]
    refine List.countP_congr fun r _ => ?_
    rw [Function.comp, Rec.within, Rec.within, List.all_eq_true, List.all_eq_true]
    refine forall₂_congr fun p hp => ?_
    simp only [Rec.eqAt, h5 r _ (hk _ (Dict.mem_keys_of_mem hp))]
  have e2 : ∀ a : V → S, (fr2.rows.countP fun r => (Dict.keys d).all fun v => Rec.eqAt r v (a v)) =
      rows.countP fun r => (Dict.keys d).all fun v => Rec.eqAt r v (a v) := by
    intro a
    rw [h4, List.countP_map]
    refine List.countP_congr fun r _ => ?_
    rw [Function.comp, List.all_eq_true, List.all_eq_true]
    refine forall₂_congr fun v hv => ?_
    simp only [Rec.eqAt, h5 r _ (hk _ hv)]
  simp only [e1, e2] at key
  rw [hq]
  exact key

theorem countP_filter_agrees {fr : Frame V S} (hw : fr.WF) (ev : Obs V S) (T W : List V) (hT : ∀ v, v ∈ W ↔ v ∈ T) (a : V → S) :
    ((fr.rows.filter fun r => ev.all fun p => Rec.eqAt r p.1 p.2).countP fun r => W.all fun v => Rec.eqAt r v (a v)) =
      numRows fr fun r => Agrees r ev ∧ AgreesOn r T a := by
  rw [List.countP_filter, numRows, List.countP_eq_length_filter]
  congr 1
  refine List.filter_congr fun r hr => ?_
  rw [Bool.eq_iff_iff, Bool.and_eq_true, decide_eq_true_eq, agreesOn_iff hw.nodup (hw.keys r hr),
    agrees_iff hw.nodup (hw.keys r hr), and_comm]
  have : AgreesOn r W a ↔ AgreesOn r T a :=
    ⟨fun h t ht => h t ((hT t).2 ht), fun h t ht => h t ((hT t).1 ht)⟩
  rw [this]

theorem LaplaceOk.rows {o : Laplace V S} {T : List V} {ev : Obs V S} (h : LaplaceOk o T ev) :
    (∀ r ∈ o.data.rows.filter fun r => ev.all fun p => Rec.eqAt r p.1 p.2, ∀ p ∈ o.domains, p.1 ∈ T →
      ∃ s ∈ p.2, Rec.val r p.1 = some s) ∧
    ((o.data.rows.filter fun r => ev.all fun p => Rec.eqAt r p.1 p.2).countP
      (Rec.within (o.domains.filter fun p => p.1 ∈ T)) = numRows o.data fun r => Agrees r ev) := by
  have h1 : ∀ r ∈ o.data.rows.filter fun r => ev.all fun p => Rec.eqAt r p.1 p.2, ∀ p ∈ o.domains, p.1 ∈ T →
      ∃ s ∈ p.2, Rec.val r p.1 = some s := by
    intro r hr p hp ht
    obtain ⟨hr1, hr2⟩ := List.mem_filter.1 hr
    obtain ⟨s, hs, hm⟩ := h.complete r hr1 ((agrees_iff h.wf.nodup (h.wf.keys r hr1) ev).1 hr2) p hp ht
    exact ⟨s, hs, (mem_iff_val h.wf.nodup (h.wf.keys r hr1)).1 hm⟩
  refine ⟨h1, ?_⟩
  have h2 : (o.data.rows.filter fun r => ev.all fun p => Rec.eqAt r p.1 p.2).countP
      (Rec.within (o.domains.filter fun p => p.1 ∈ T)) =
      (o.data.rows.filter fun r => ev.all fun p => Rec.eqAt r p.1 p.2).length := by
    rw [List.countP_eq_length]
    intro r hr
    rw [Rec.within, List.all_eq_true]
    intro p hp
    obtain ⟨hp1, hp2⟩ := List.mem_filter.1 hp
    obtain ⟨s, hs, hv⟩ := h1 r hr p hp1 (by simpa using hp2)
    exact List.any_eq_true.2 ⟨s, hs, by simp [Rec.eqAt, hv]⟩
  rw [h2, numRows]
  congr 1
  refine List.filter_congr fun r hr => ?_
  rw [Bool.eq_iff_iff, agrees_iff h.wf.nodup (h.wf.keys r hr), decide_eq_true_eq]

theorem LaplaceOk.sem {vt : VType} {N : NanName S} {o : Laplace V S} {T : List V} {ev : Obs V S} (h : LaplaceOk o T ev)
    (hpos : 0 < numRows o.data fun r => Agrees r ev) :
    ∃ f : Factor (storeOf vt : StoreImpl V S (Fl K)), o.query N (storeOf vt) T ev = .ok f ∧ f.WF ∧
      f.dom = o.domains.filter (fun p => p.1 ∈ T) ∧ f.rightVars = [] ∧ ∀ a, InDom f.dom a → f.sem a = .fin
        ((((o.data.rows.filter fun r => ev.all fun p => Rec.eqAt r p.1 p.2).countP
          fun r => f.vars.all fun v => Rec.eqAt r v (a v) : ℕ) : K) / (numRows o.data fun r => Agrees r ev : ℕ)) := by
  obtain ⟨h1, h2⟩ := h.rows
  have key := (lap_query (K := K) (N := N) (storeOf_lawful vt) h.dom h.nonempty h.nodup h.tdom h.tcols h.ecols h.disj rfl
    (fun r hr t ht => by
      obtain ⟨st, hst⟩ := Dict.mem_keys.1 (h.tdom t ht)
      obtain ⟨s, _, hs⟩ := h1 r hr _ hst ht
      simp only at hs
      rw [hs]; simp) rfl).2
  rw [h2] at key
  obtain ⟨f, k1, k2, k3, k4, k5⟩ := key (Nat.pos_iff_ne_zero.1 hpos)
  refine ⟨f, k1, k2, k3, k4, fun a ha => ?_⟩
  rw [k5 a (k3 ▸ ha), Factor.vars, k3]

/-- **C48** a query from complete data within the domains returns relative frequencies, whatever the store. -/
theorem C48_frequency (vt : VType) (N : NanName S) {o : Laplace V S} {T : List V} {ev : Obs V S} (h : LaplaceOk o T ev)
    (hpos : 0 < numRows o.data fun r => Agrees r ev) :
    ∃ f : Factor (storeOf vt : StoreImpl V S (Fl K)), o.query N (storeOf vt) T ev = .ok f ∧ f.WF ∧
      f.dom = o.domains.filter (fun p => p.1 ∈ T) ∧ (∀ v, v ∈ f.vars ↔ v ∈ T) ∧ f.rightVars = [] ∧
      ∀ a obs, InDom f.dom a → Covers f.dom obs a → f.getValue obs = .ok (.fin
        (((numRows o.data fun r => Agrees r ev ∧ AgreesOn r T a : ℕ) : K) / (numRows o.data fun r => Agrees r ev : ℕ))) := by
  obtain ⟨f, k1, k2, k3, k4, k5⟩ := h.sem (K := K) (vt := vt) (N := N) hpos
  have hv : ∀ v, v ∈ f.vars ↔ v ∈ T := by
    intro v
    rw [Factor.vars, k3, keys_filter_mem]
    simp only [List.mem_filter, decide_eq_true_eq]
    exact ⟨fun h => h.2, fun ht => ⟨h.tdom v ht, ht⟩⟩
  refine ⟨f, k1, k2, k3, hv, k4, fun a obs ha hc => ?_⟩
  rw [Factor.getValue_ok (storeOf_lawful vt) k2 ha hc, k5 a ha, countP_filter_agrees h.wf ev T f.vars hv]

/-- **C48** without a record that agrees with the evidence the query raises `ZeroDivisionError`. -/
theorem C48_no_records (vt : VType) (N : NanName S) {o : Laplace V S} {T : List V} {ev : Obs V S} (h : LaplaceOk o T ev)
    (h0 : numRows o.data (fun r => Agrees r ev) = 0) :
    o.query N (storeOf vt : StoreImpl V S (Fl K)) T ev = .error .zeroDivision := by
  obtain ⟨h1, h2⟩ := h.rows
  have key := (lap_query (K := K) (N := N) (storeOf_lawful vt) h.dom h.nonempty h.nodup h.tdom h.tcols h.ecols h.disj rfl
    (fun r hr t ht => by
      obtain ⟨st, hst⟩ := Dict.mem_keys.1 (h.tdom t ht)
      obtain ⟨s, _, hs⟩ := h1 r hr _ hst ht
      simp only at hs
      rw [hs]; simp) rfl).1
  rw [h2] at key
  exact key h0

/-- What a conditional query from data returns, with its domain. -/
theorem lap_cond (vt : VType) (N : NanName S) {setOrd : List V → List V}
    (hso : ∀ l, (setOrd l).Nodup ∧ ∀ v, v ∈ setOrd l ↔ v ∈ l)
    {o : Laplace V S} {T C : List V} {ev : Obs V S} (hT : T.Nodup) (hdis : ∀ t ∈ T, t ∉ C)
    (h : LaplaceOk o (setOrd (T ++ C)) ev) (hpos : 0 < numRows o.data fun r => Agrees r ev) [CharZero K] :
    ∃ f : Factor (storeOf vt : StoreImpl V S (Fl K)), o.queryCond N (storeOf vt) setOrd T C ev = .ok f ∧ f.WF ∧
      f.dom = o.domains.filter (fun p => p.1 ∈ setOrd (T ++ C)) ∧
      (∀ v, v ∈ f.vars ↔ v ∈ T ∨ v ∈ C) ∧ (∀ v, v ∈ f.rightVars ↔ v ∈ C) ∧
      ∀ a obs, InDom f.dom a → Covers f.dom obs a → 0 < (numRows o.data fun r => Agrees r ev ∧ AgreesOn r C a) →
        f.getValue obs = .ok (.fin (((numRows o.data fun r => Agrees r ev ∧ AgreesOn r (T ++ C) a : ℕ) : K) /
          (numRows o.data fun r => Agrees r ev ∧ AgreesOn r C a : ℕ))) := by
  have hI := storeOf_lawful (V := V) (S := S) (α := Fl K) vt
  obtain ⟨p, k1, k2, k3, k4, k5⟩ := h.sem (K := K) (vt := vt) (N := N) hpos
  have hpv : ∀ v, v ∈ p.vars ↔ v ∈ T ∨ v ∈ C := by
    intro v
    rw [Factor.vars, k3, keys_filter_mem]
    simp only [List.mem_filter, decide_eq_true_eq]
    rw [(hso _).2, List.mem_append]
    exact ⟨fun h => h.2, fun ht => ⟨h.tdom v (((hso _).2 v).2 (List.mem_append.2 ht)), ht⟩⟩
  have hnd : (Dict.keys o.domains).Nodup := h.dom.keys
  let D : V → List S := fun v => (Dict.get? o.domains v).getD []
  have hD : ∀ q ∈ o.domains, q.2 = D q.1 := by
    intro q hq
    show _ = (Dict.get? o.domains q.1).getD []
    rw [Dict.get?_of_mem (k := q.1) (v := q.2) hnd hq]; rfl
  have hpd : ∀ q ∈ p.dom, q.2 = D q.1 := by
    intro q hq
    rw [k3] at hq
    exact hD q (List.mem_filter.1 hq).1
  set n : K := ((numRows o.data fun r => Agrees r ev : ℕ) : K) with hn
  have hn0 : n ≠ 0 := by rw [hn]; exact_mod_cast Nat.pos_iff_ne_zero.1 hpos
  have hrep : Factor.Rep D p (fun a => (((o.data.rows.filter fun r => ev.all fun p => Rec.eqAt r p.1 p.2).countP
      fun r => p.vars.all fun v => Rec.eqAt r v (a v) : ℕ) : K) / n) :=
    ⟨k2, hpd, fun a ha => k5 a (Factor.inDom_of_states hpd ha)⟩
  obtain ⟨q, q1, q2, q3, q4, q5⟩ := hrep.marginalize hI (fun t ht => (hpv t).2 (.inl ht)) hT
  have hsum : ∀ a, sumOver D T (fun a => (((o.data.rows.filter fun r => ev.all fun p => Rec.eqAt r p.1 p.2).countP
      fun r => p.vars.all fun v => Rec.eqAt r v (a v) : ℕ) : K) / n) a =
      ((numRows o.data fun r => Agrees r ev ∧ AgreesOn r C a : ℕ) : K) / n := by
    intro a
    rw [sumOver_count (fun t ht => (hpv t).2 (.inl ht)) hT]
    · rw [countP_filter_agrees h.wf ev C _ (fun v => by
        simp only [List.mem_filter, hpv, decide_eq_true_eq]
        exact ⟨fun h => h.1.resolve_left h.2, fun hc => ⟨.inr hc, fun ht => hdis v ht hc⟩⟩)]
    · intro t ht
      obtain ⟨st, hst⟩ := Dict.mem_keys.1 (h.tdom t (((hso _).2 t).2 (List.mem_append_left _ ht)))
      rw [← hD _ hst]
      exact h.dom.states _ hst
    · intro r hr t ht
      have htm := ((hso (T ++ C)).2 t).2 (List.mem_append_left _ ht)
      obtain ⟨st, hst⟩ := Dict.mem_keys.1 (h.tdom t htm)
      obtain ⟨s, hs, hv⟩ := h.rows.1 r hr _ hst htm
      exact ⟨s, by rw [← hD _ hst]; exact hs, hv⟩
  obtain ⟨f, r1, r2, r3, r4, r5⟩ := Factor.divideG_ok hI
    (fun x y => (storeOf vt : StoreImpl V S (Fl K)).divWrap Fl.nanToNum (x / y)) k2 q2.wf (hrep.compat q2)
  have hrd : f.dom = p.dom := by
    rw [r3, q3, domUnion]
    refine List.append_right_eq_self.2 ?_
    refine List.filter_eq_nil_iff.2 fun x hx => ?_
    have : x.1 ∈ Dict.keys p.dom := by
      have : x ∈ p.dom := by
        rw [domOut] at hx; exact (List.mem_filter.1 hx).1
      exact Dict.mem_keys_of_mem this
    simpa using this
  have hfv : ∀ v, v ∈ f.vars ↔ v ∈ T ∨ v ∈ C := by
    intro v; rw [Factor.vars, hrd]; exact hpv v
  refine ⟨f, ?_, r2, hrd.trans k3, hfv, ?_, ?_⟩
  · simp only [Laplace.queryCond, hdis, k1, py_ok_bind, q1]
    rw [if_neg (not_not.2 hdis)]
    exact r1
  · intro v
    rw [r4]
    simp only [List.mem_filter, decide_eq_true_eq, hfv, q4, hpv, k4]
    constructor
    · rintro ⟨_, h | h⟩
      · cases h
      · exact h.1.resolve_left h.2
    · intro hc
      exact ⟨.inr hc, .inr ⟨.inr hc, fun ht => hdis v ht hc⟩⟩
  · intro a obs ha hc hpos2
    rw [Factor.getValue_ok hI r2 ha hc, r5 a ha, k5 a (hrd ▸ ha), q2.sem a (by
      refine fun v hv => Factor.states_of_inDom hpd (hrd ▸ ha) v ((q4 v).1 hv).1), hsum]
    have hne : ((numRows o.data fun r => Agrees r ev ∧ AgreesOn r C a : ℕ) : K) / n ≠ 0 :=
      div_ne_zero (by exact_mod_cast Nat.pos_iff_ne_zero.1 hpos2) hn0
    rw [Fl.fin_div hne, div_div_div_cancel_right₀ hn0, countP_filter_agrees h.wf ev (T ++ C) p.vars (fun v => by
      rw [hpv, List.mem_append])]
    rcases hI.divWrap_or with e | e <;> rw [e] <;> rfl

/-- **C48** a conditional query returns the frequency of the target among the records that agree with the conditioning
variables and the evidence, wherever there is such a record. -/
theorem C48_conditional (vt : VType) (N : NanName S) {setOrd : List V → List V}
    (hso : ∀ l, (setOrd l).Nodup ∧ ∀ v, v ∈ setOrd l ↔ v ∈ l)
    {o : Laplace V S} {T C : List V} {ev : Obs V S} (hT : T.Nodup) (hdis : ∀ t ∈ T, t ∉ C)
    (h : LaplaceOk o (setOrd (T ++ C)) ev) (hpos : 0 < numRows o.data fun r => Agrees r ev) [CharZero K] :
    ∃ f : Factor (storeOf vt : StoreImpl V S (Fl K)), o.queryCond N (storeOf vt) setOrd T C ev = .ok f ∧ f.WF ∧
      (∀ v, v ∈ f.vars ↔ v ∈ T ∨ v ∈ C) ∧ (∀ v, v ∈ f.rightVars ↔ v ∈ C) ∧
      ∀ a obs, InDom f.dom a → Covers f.dom obs a → 0 < (numRows o.data fun r => Agrees r ev ∧ AgreesOn r C a) →
        f.getValue obs = .ok (.fin (((numRows o.data fun r => Agrees r ev ∧ AgreesOn r (T ++ C) a : ℕ) : K) /
          (numRows o.data fun r => Agrees r ev ∧ AgreesOn r C a : ℕ))) := by
  obtain ⟨f, h1, h2, _, h3⟩ := lap_cond (K := K) vt N hso hT hdis h hpos
  exact ⟨f, h1, h2, h3⟩

end

/-! ### Example data -/

/-- Three records over `A`, `B`, `C`. -/
def frEx : Frame Char Char :=
  ⟨['A', 'B', 'C'], [[('A', some '0'), ('B', some '1'), ('C', some '0')], [('A', some '1'), ('B', some '1'), ('C', some '0')],
    [('A', some '0'), ('B', some '0'), ('C', some '1')], [('A', some '0'), ('B', some '1'), ('C', some '1')]]⟩

def lapEx (pre : Bool) : Laplace Char Char := ⟨frEx, [('C', ['0', '1']), ('B', ['0', '1']), ('A', ['0', '1'])], pre⟩

/-- digits are strings -/
def nanEx : NanName Char := ⟨'n', fun c => c.isDigit⟩

theorem lapEx_ok (pre : Bool) (T : List Char) (ev : Obs Char Char) (hT : T ≠ []) (hn : T.Nodup)
    (h1 : ∀ t ∈ T, t ∈ ['A', 'B', 'C']) (h2 : ∀ v ∈ Dict.keys ev, v ∈ ['A', 'B', 'C']) (h3 : ∀ t ∈ T, t ∉ Dict.keys ev) :
    LaplaceOk (lapEx pre) T ev where
  wf := (⟨by decide, by decide⟩ : frEx.WF)
  dom := by show DomOk [('C', ['0', '1']), ('B', ['0', '1']), ('A', ['0', '1'])]; decide
  nonempty := hT
  nodup := hn
  tdom := fun t ht => by
    have := h1 t ht
    simp only [List.mem_cons, List.not_mem_nil, or_false] at this
    rcases this with rfl | rfl | rfl <;> cases pre <;> decide
  tcols := h1
  ecols := h2
  disj := h3
  complete := by
    intro r hr _ p hp _
    have : ∀ r ∈ frEx.rows, ∀ p ∈ (lapEx true).domains, ∃ s ∈ p.2, (p.1, some s) ∈ r := by decide
    exact this r hr p hp

/-- Two of the three records with `A = 0` have `B = 1`; the hypotheses of the theorem hold. -/
example (vt : VType) (pre : Bool) : LaplaceOk (lapEx pre) ['B'] [('A', '0')] ∧
    (0 < numRows frEx fun r => Agrees r [('A', '0')]) ∧
    ((lapEx pre).query nanEx (IQ vt) ['B'] [('A', '0')] >>= fun f => f.getValue [('B', '1')]) = .ok (.fin (2 / 3)) := by
  refine ⟨lapEx_ok pre _ _ (by decide) (by decide) (by decide) (by decide) (by decide), by decide, ?_⟩
  cases vt <;> cases pre <;> decide +kernel

/-- The same number as a conditional query. -/
example (vt : VType) (pre : Bool) :
    ((lapEx pre).queryCond nanEx (IQ vt) List.dedup ['B'] ['A'] [] >>= fun f => f.getValue [('A', '0'), ('B', '1')]) =
      .ok (.fin (2 / 3)) := by
  cases vt <;> cases pre <;> decide +kernel

/-- No record has `A = 1` and `B = 0`. -/
example (vt : VType) (pre : Bool) : LaplaceOk (lapEx pre) ['C'] [('A', '1'), ('B', '0')] ∧
    (lapEx pre).query nanEx (IQ vt) ['C'] [('A', '1'), ('B', '0')] = .error .zeroDivision := by
  have h := lapEx_ok pre ['C'] [('A', '1'), ('B', '0')] (by decide) (by decide) (by decide) (by decide) (by decide)
  exact ⟨h, C48_no_records vt nanEx h (by show (numRows frEx fun r => Agrees r [('A', '1'), ('B', '0')]) = 0; decide)⟩

/-- **C48** outside the hypotheses: records whose value is missing are dropped silently (the state `nan` that is added
for them always has frequency 0), so that the result is not the frequency among the records that agree with the
evidence. -/
theorem C48_missing (vt : VType) :
    let o : Laplace Char Char := ⟨⟨['A'], [[('A', some '0')], [('A', none)], [('A', none)]]⟩, [('A', ['0', '1'])], true⟩
    (o.query nanEx (IQ vt) ['A'] [] >>= fun f => f.valuesList) = .ok [.fin 1, .fin 0, .fin 0] := by
  cases vt <;> decide +kernel

/-! ### Distinct observations -/

section
variable {V S : Type} [DecidableEq V] [DecidableEq S]

/-- Two dictionaries are equal in python. -/
def SameObs (d d' : Obs V S) : Prop := ∀ k, Dict.get? d k = Dict.get? d' k

/-- **C60** the kept observations are, in their order, those that are not preceded by the same one. -/
theorem C60_first (l : List (Obs V S)) :
    ∃ idx : List Nat, obsUnique l = idx.map (fun i => l.getD i []) ∧ idx.Pairwise (· < ·) ∧
      ∀ i, i ∈ idx ↔ i < l.length ∧ ∀ j < i, ¬ SameObs (l.getD i []) (l.getD j []) := by
  refine ⟨_, obsUnique_eq l, List.Pairwise.filter _ List.pairwise_lt_range, fun i => ?_⟩
  rw [List.mem_filter, List.mem_range, firstAt_iff]
  rfl

/-- **C60** every observation is there, exactly once. -/
theorem C60_exactly_once (l : List (Obs V S)) :
    (∀ d ∈ obsUnique l, d ∈ l) ∧ (∀ d ∈ l, ∃ d' ∈ obsUnique l, SameObs d' d) ∧
      (obsUnique l).Pairwise fun d d' => ¬ SameObs d d' :=
  ⟨fun _ h => mem_obsUnique h, fun _ h => obsUnique_complete h, obsUnique_distinct l⟩

/-- **C60** for the data: every record has its pattern among the observations, and each comes from a record. -/
theorem C60_patterns (g : DiGraph V) (fr : Frame V S) (t : V) :
    (∀ d ∈ obsBlanket g fr t, ∃ r ∈ fr.rows, d = dsepFilter g t r) ∧
      ∀ r ∈ fr.rows, ∃ d ∈ obsBlanket g fr t, SameObs d (dsepFilter g t r) := by
  constructor
  · intro d hd
    obtain ⟨r, hr, rfl⟩ := List.mem_map.1 (mem_obsUnique hd)
    exact ⟨r, mem_dropDup.1 hr, rfl⟩
  · intro r hr
    exact obsUnique_complete (List.mem_map_of_mem (mem_dropDup.2 hr))

end

example : obsUnique [[('A', 1), ('B', 0)], [('A', 2)], [('B', 0), ('A', 1)], [('A', 2)], [('A', 2), ('B', 0)]] =
    [[('A', 1), ('B', 0)], [('A', 2)], [('A', 2), ('B', 0)]] := by decide +kernel

/-! ### Weights of observations -/

section
variable {V S : Type} [DecidableEq V] [DecidableEq S]

theorem obsCounts_ok {g : DiGraph V} {fr : Frame V S} (hw : fr.WF) {t : V}
    (hne : ∀ r ∈ fr.rows, ∃ v ∈ fr.cols, v ∈ t :: g.dconNodes t (Rec.observed r) ∧ (Rec.val r v).isSome) :
    obsCounts g fr t = .ok ((obsBlanket g fr t).map fun o => (o, fr.rows.countP fun r => o.all fun p => Rec.eqAt r p.1 p.2)) := by
  refine mapM_ok fun o ho => ?_
  obtain ⟨r, hr, rfl⟩ := (C60_patterns g fr t).1 o ho
  have hk := hw.keys r hr
  obtain ⟨v, h1, h2, h3⟩ := hne r hr
  obtain ⟨s, hs⟩ := Option.isSome_iff_exists.1 h3
  have hm : (v, s) ∈ dsepFilter g t r := (mem_dsepFilter hw.nodup hk).2 ⟨h1, h2, hs⟩
  have he : (dsepFilter g t r).isEmpty = false := by
    cases hd : dsepFilter g t r with
    | nil => rw [hd] at hm; cases hm
    | cons => rfl
  rw [matchCount, he]
  simp only [Bool.false_eq_true, if_false]
  rw [if_pos fun p hp => ((mem_dsepFilter hw.nodup hk).1 hp).1]
  rfl

theorem own_pattern {g : DiGraph V} {fr : Frame V S} (hw : fr.WF) {t : V} {r : Rec V S} (hr : r ∈ fr.rows) :
    ((obsBlanket g fr t).any fun o => o.all fun p => Rec.eqAt r p.1 p.2) = true := by
  obtain ⟨d, hd, hs⟩ := (C60_patterns g fr t).2 r hr
  obtain ⟨r', hr', rfl⟩ := (C60_patterns g fr t).1 d hd
  refine List.any_eq_true.2 ⟨_, hd, List.all_eq_true.2 fun p hp => ?_⟩
  have h1 := Dict.get?_of_mem (k := p.1) (v := p.2) (keys_dsepFilter_nodup hw.nodup (hw.keys r' hr') g t) hp
  rw [hs p.1] at h1
  have h2 := (mem_dsepFilter hw.nodup (hw.keys r hr)).1 (Dict.mem_of_get? h1)
  rw [Rec.eqAt, h2.2.2, beq_self_eq_true]

theorem match_own {g : DiGraph V} {fr : Frame V S} (hw : fr.WF) {t : V}
    (hu : ∀ r ∈ fr.rows, ∀ r' ∈ fr.rows, Rec.observed r = Rec.observed r') {r : Rec V S} (hr : r ∈ fr.rows) {k : Obs V S}
    (hk : k ∈ obsBlanket g fr t) (h : (k.all fun p => Rec.eqAt r p.1 p.2) = true) : k = dsepFilter g t r := by
  obtain ⟨r', hr', rfl⟩ := (C60_patterns g fr t).1 k hk
  rw [dsepFilter_eq hw.nodup (hw.keys r' hr'), dsepFilter_eq hw.nodup (hw.keys r hr), hu r' hr' r hr]
  refine List.filterMap_congr fun v hv => ?_
  obtain ⟨hv1, hv2⟩ := List.mem_filter.1 hv
  have he := hu r' hr' r hr
  rw [observed_eq hw.nodup (hw.keys r' hr'), observed_eq hw.nodup (hw.keys r hr)] at he
  have hi : (Rec.val r' v).isSome ↔ (Rec.val r v).isSome := by
    constructor
    · intro h'
      have hm : v ∈ fr.cols.filter fun v => (Rec.val r' v).isSome := List.mem_filter.2 ⟨hv1, h'⟩
      rw [he] at hm
      exact (List.mem_filter.1 hm).2
    · intro h'
      have hm : v ∈ fr.cols.filter fun v => (Rec.val r v).isSome := List.mem_filter.2 ⟨hv1, h'⟩
      rw [← he] at hm
      exact (List.mem_filter.1 hm).2
  cases hx : Rec.val r' v with
  | none =>
    rw [hx] at hi
    have : Rec.val r v = none := by
      rw [← Option.not_isSome_iff_eq_none, ← hi]; simp
    rw [this]
  | some s =>
    have hm : (v, s) ∈ dsepFilter g t r' := (mem_dsepFilter hw.nodup (hw.keys r' hr')).2
      ⟨hv1, by rw [hu r' hr' r hr]; simpa using hv2, hx⟩
    have := List.all_eq_true.1 h _ hm
    rw [Rec.eqAt, beq_iff_eq] at this
    rw [this]

theorem obsBlanket_nodup (g : DiGraph V) (fr : Frame V S) (t : V) : (obsBlanket g fr t).Nodup := by
  have := (C60_exactly_once ((dropDup fr.rows).map (dsepFilter g t))).2.2
  exact this.imp fun h e => h (fun k => by rw [e])

/-- **C57 (partial)** when the same columns are observed in all records, the weights add up to the number of records.
(The full statement allows different records to miss different values; it is false, see `C57_double`.) The second
hypothesis excludes records of which nothing relevant is observed, for which `reduce` fails, see `C57_empty`. -/
theorem C57_weights_partial {g : DiGraph V} {fr : Frame V S} (hw : fr.WF) {t : V}
    (hu : ∀ r ∈ fr.rows, ∀ r' ∈ fr.rows, Rec.observed r = Rec.observed r')
    (hne : ∀ r ∈ fr.rows, ∃ v ∈ Rec.observed r, v ∈ t :: g.dconNodes t (Rec.observed r)) :
    ∃ l, obsCounts g fr t = .ok l ∧ (l.map Prod.snd).sum = fr.rows.length ∧
      ∀ oc ∈ l, oc.2 = numRows fr fun r => Agrees r oc.1 := by
  have hne' : ∀ r ∈ fr.rows, ∃ v ∈ fr.cols, v ∈ t :: g.dconNodes t (Rec.observed r) ∧ (Rec.val r v).isSome := by
    intro r hr
    obtain ⟨v, h1, h2⟩ := hne r hr
    rw [observed_eq hw.nodup (hw.keys r hr)] at h1
    obtain ⟨h3, h4⟩ := List.mem_filter.1 h1
    exact ⟨v, h3, h2, h4⟩
  refine ⟨_, obsCounts_ok hw hne', ?_, ?_⟩
  · rw [List.map_map]
    have hP := fun r hr k hk h => match_own (g := g) (t := t) hw hu (r := r) hr (k := k) hk h
    have hnd := obsBlanket_nodup g fr t
    have := sum_countP fr.rows (obsBlanket g fr t) (fun r o => o.all fun p => Rec.eqAt r p.1 p.2) hnd
      (fun r hr k hk k' hk' h h' => (hP r hr k hk h).trans (hP r hr k' hk' h').symm)
    refine Eq.trans this (List.countP_eq_length.2 fun r hr => own_pattern hw hr)
  · intro oc hoc
    obtain ⟨o, _, rfl⟩ := List.mem_map.1 hoc
    simp only [numRows, ← List.countP_eq_length_filter]
    refine List.countP_congr fun r hr => ?_
    rw [agrees_iff hw.nodup (hw.keys r hr), decide_eq_true_eq]

/-- **C57** with any pattern of missing values every record is counted at least once. -/
theorem C57_at_least {g : DiGraph V} {fr : Frame V S} (hw : fr.WF) {t : V}
    (hne : ∀ r ∈ fr.rows, ∃ v ∈ Rec.observed r, v ∈ t :: g.dconNodes t (Rec.observed r)) :
    ∃ l, obsCounts g fr t = .ok l ∧ fr.rows.length ≤ (l.map Prod.snd).sum := by
  have hne' : ∀ r ∈ fr.rows, ∃ v ∈ fr.cols, v ∈ t :: g.dconNodes t (Rec.observed r) ∧ (Rec.val r v).isSome := by
    intro r hr
    obtain ⟨v, h1, h2⟩ := hne r hr
    rw [observed_eq hw.nodup (hw.keys r hr)] at h1
    obtain ⟨h3, h4⟩ := List.mem_filter.1 h1
    exact ⟨v, h3, h2, h4⟩
  refine ⟨_, obsCounts_ok hw hne', ?_⟩
  rw [List.map_map]
  refine Nat.le_trans (Nat.le_of_eq ?_) (le_sum_countP fr.rows (obsBlanket g fr t) fun r o => o.all fun p => Rec.eqAt r p.1 p.2)
  exact (List.countP_eq_length.2 fun r hr => own_pattern hw hr).symm

end

/-- `U → A`, `U → B` -/
def gUAB : DiGraph Char := .ofEdges [('U', 'A'), ('U', 'B')]

/-- Records with `U` missing throughout -/
def frU : Frame Char Char :=
  ⟨['A', 'B', 'U'], [[('A', some '0'), ('B', some '1'), ('U', none)], [('A', some '0'), ('B', some '1'), ('U', none)],
    [('A', some '1'), ('B', some '1'), ('U', none)]]⟩

example : frU.WF ∧ (∀ r ∈ frU.rows, ∀ r' ∈ frU.rows, Rec.observed r = Rec.observed r') ∧
    (∀ r ∈ frU.rows, ∃ v ∈ Rec.observed r, v ∈ 'U' :: gUAB.dconNodes 'U' (Rec.observed r)) ∧
    obsCounts gUAB frU 'U' = .ok [([('A', '0'), ('B', '1')], 2), ([('A', '1'), ('B', '1')], 1)] :=
  ⟨⟨by decide, by decide⟩, by decide +kernel, by decide +kernel, by decide +kernel⟩

/-- Two records, of which the first misses `B` -/
def frMixed : Frame Char Char :=
  ⟨['A', 'B', 'U'], [[('A', some '0'), ('B', none), ('U', none)], [('A', some '0'), ('B', some '1'), ('U', none)]]⟩

/-- **C57** fails for data with different missing values: the second record also agrees with the pattern of the first,
and the weights of two records add up to three. -/
theorem C57_double : frMixed.WF ∧ frMixed.rows.length = 2 ∧ ∃ l, obsCounts gUAB frMixed 'U' = .ok l ∧ (l.map Prod.snd).sum = 3 :=
  ⟨⟨by decide, by decide⟩, rfl, [([('A', '0')], 2), ([('A', '0'), ('B', '1')], 1)], by decide +kernel, by decide⟩

/-- **C57** a record with nothing observed makes the weights fail. -/
theorem C57_empty : obsCounts gUAB ⟨['A', 'B', 'U'], [[('A', none), ('B', none), ('U', none)]]⟩ 'U' =
    (.error .typeError : Py (List (Obs Char Char × Nat))) := by decide +kernel

end Verif.Props
