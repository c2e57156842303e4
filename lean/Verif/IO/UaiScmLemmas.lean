import Verif.IO.UaiScm
import Verif.IO.UaiText
import Verif.Net.Solution
import Verif.Props.Deterministic
import Verif.Model.Intervene

/-!
# Equations in a UAI file
-/

set_option linter.unusedSectionVars false
set_option linter.unusedSimpArgs false

namespace Verif

variable {V S S' K : Type} [DecidableEq V] [DecidableEq S] [DecidableEq S'] [Inhabited S] [Inhabited S'] [Field K] [LinearOrder K]

/-! ### The state that an equation selects -/

/-- Some state where `t` is one -/
noncomputable def pickOne (l : List S) (t : S → K) : S := by
  classical exact if h : ∃ s ∈ l, t s = 1 then h.choose else default

/-- The state of `v` that its equation selects, given the states of the parents -/
noncomputable def BN.sel (B : BN V S K) (v : V) (a : V → S) : S := pickOne (B.states v) fun s => B.table v (upd a v s)

theorem pickOne_spec {l : List S} {t : S → K} (h : ∃ s ∈ l, t s = 1) : pickOne l t ∈ l ∧ t (pickOne l t) = 1 := by
  rw [pickOne, dif_pos h]
  exact h.choose_spec

theorem BN.sel_congr {B : BN V S K} (hB : B.Valid) {v : V} (hv : v ∈ B.nodes) {a b : V → S} (h : ∀ u ∈ B.parents v, a u = b u) :
    B.sel v a = B.sel v b := by
  rw [BN.sel, BN.sel]
  congr 1
  funext s
  refine hB.scope v hv _ _ fun u hu => ?_
  by_cases e : u = v
  · subst e; rw [upd_same, upd_same]
  · rw [upd_ne _ _ e, upd_ne _ _ e]
    exact h u ((List.mem_cons.1 hu).resolve_left e)

/-- An assignment with states for all variables -/
noncomputable def BN.fill (B : BN V S K) (a : V → S) : V → S := by
  classical exact fun u => if a u ∈ B.states u then a u else (B.states u).headD default

theorem BN.fill_of_mem {B : BN V S K} {a : V → S} {u : V} (h : a u ∈ B.states u) : B.fill a u = a u := if_pos h

theorem BN.fill_inStates {B : BN V S K} (hB : B.Valid) (a : V → S) : B.InStates (B.fill a) := by
  intro u hu
  rw [BN.fill]
  split
  · assumption
  · obtain ⟨s, l, h⟩ := List.exists_cons_of_ne_nil (hB.nonempty u hu)
    rw [h]; simp

variable [IsStrictOrderedRing K]

theorem BN.sel_ok {B : BN V S K} (hB : B.Valid) (hN : B.Normalised) {v : V} (hv : v ∈ B.nodes)
    (h01 : ∀ a, B.InStates a → B.table v a = 0 ∨ B.table v a = 1) {a : V → S} (ha : ∀ u ∈ B.parents v, a u ∈ B.states u) :
    B.sel v a ∈ B.states v ∧ ∀ s ∈ B.states v, B.table v (upd a v s) = if s = B.sel v a then 1 else 0 := by
  have hE : B.Eqs [v] := ⟨hB, hN, by simp, by simpa using hv, by simpa using h01⟩
  have hfs : ∀ u ∈ B.parents v, B.fill a u = a u := fun u hu => BN.fill_of_mem (ha u hu)
  have htab : ∀ s, B.table v (upd (B.fill a) v s) = B.table v (upd a v s) := by
    intro s
    refine hB.scope v hv _ _ fun u hu => ?_
    by_cases e : u = v
    · subst e; rw [upd_same, upd_same]
    · rw [upd_ne _ _ e, upd_ne _ _ e]
      exact hfs u ((List.mem_cons.1 hu).resolve_left e)
  obtain ⟨h1, h2⟩ := hE.col (v := v) (by simp) (BN.fill_inStates hB a)
  simp only [htab] at h1 h2
  obtain ⟨p1, p2⟩ := pickOne_spec h1
  refine ⟨p1, fun s hs => ?_⟩
  split
  · rename_i e; rw [e]; exact p2
  · rename_i e
    have hz := h01 (upd (B.fill a) v s) fun w hw => by
      by_cases e : w = v
      · subst e; rw [upd_same]; exact hs
      · rw [upd_ne _ _ e]; exact BN.fill_inStates hB a w hw
    rw [htab] at hz
    exact hz.resolve_right fun hc => e (h2 s hs _ p1 hc p2)

theorem BN.table_sel {B : BN V S K} (hB : B.Valid) (hN : B.Normalised) {v : V} (hv : v ∈ B.nodes)
    (h01 : ∀ a, B.InStates a → B.table v a = 0 ∨ B.table v a = 1) {a : V → S} (ha : ∀ u ∈ v :: B.parents v, a u ∈ B.states u) :
    B.table v a = if a v = B.sel v a then 1 else 0 := by
  have := (BN.sel_ok hB hN hv h01 fun u hu => ha u (List.mem_cons_of_mem _ hu)).2 (a v) (ha v List.mem_cons_self)
  rw [← this]
  congr 1
  funext u
  by_cases e : u = v
  · subst e; rw [upd_same]
  · rw [upd_ne _ _ e]

namespace Uai

/-! ### `argmax` -/

omit [IsStrictOrderedRing K] in
theorem argmaxFl_go_one (l : List (Fl K)) (hl : ∀ x ∈ l, argLess (1 : Fl K) x = false) (n i : Nat) :
    (l.foldl (fun (st : Nat × Nat × Fl K) y => if argLess st.2.2 y then (st.1 + 1, st.1, y) else (st.1 + 1, st.2.1, st.2.2))
      (n, i, 1)).2.1 = i := by
  induction l generalizing n with
  | nil => rfl
  | cons x l ih =>
    rw [List.foldl_cons]
    simp only [hl x List.mem_cons_self]
    exact ih (fun y hy => hl y (List.mem_cons_of_mem _ hy)) _

theorem less_zero_one : argLess (0 : Fl K) 1 = true := by
  show decide ((0 : K) < 1) = true
  simp

theorem less_one (x : Fl K) (h : x = 0 ∨ x = 1) : argLess (1 : Fl K) x = false := by
  rcases h with rfl | rfl
  · show decide ((1 : K) < 0) = false
    simp
  · show decide ((1 : K) < 1) = false
    simp

theorem less_zero : argLess (0 : Fl K) 0 = false := by
  show decide ((0 : K) < 0) = false
  simp

theorem argmaxFl_go (st : List S) {y : S} (hn : st.Nodup) (hy : y ∈ st) (n i : Nat) :
    ((st.map fun s => if y = s then (1 : Fl K) else 0).foldl
      (fun (st : Nat × Nat × Fl K) y => if argLess st.2.2 y then (st.1 + 1, st.1, y) else (st.1 + 1, st.2.1, st.2.2))
      (n, i, 0)).2.1 = n + st.idxOf y := by
  induction st generalizing n i with
  | nil => cases hy
  | cons s st ih =>
    rw [List.map_cons, List.foldl_cons]
    by_cases e : y = s
    · subst e
      simp only [if_true, less_zero_one]
      rw [argmaxFl_go_one]
      · simp
      · intro x hx
        obtain ⟨s, _, rfl⟩ := List.mem_map.1 hx
        exact less_one _ (by split <;> simp)
    · have hy' : y ∈ st := (List.mem_cons.1 hy).resolve_left e
      simp only [if_neg e, less_zero]
      have := ih (List.nodup_cons.1 hn).2 hy' (n + 1) i
      rw [List.idxOf_cons_ne _ (Ne.symm e), Nat.succ_eq_add_one]
      have e2 : n + (st.idxOf y + 1) = n + 1 + st.idxOf y := by omega
      rw [e2]
      exact this

theorem argmaxFl_indicator {st : List S} {y : S} (hn : st.Nodup) (hy : y ∈ st) :
    argmaxFl (st.map fun s => if y = s then (1 : Fl K) else 0) = st.idxOf y := by
  cases st with
  | nil => cases hy
  | cons s st =>
    rw [List.map_cons, argmaxFl]
    by_cases e : y = s
    · subst e
      simp only [if_true]
      rw [argmaxFl_go_one]
      · simp
      · intro x hx
        obtain ⟨s, _, rfl⟩ := List.mem_map.1 hx
        exact less_one _ (by split <;> simp)
    · rw [if_neg e, argmaxFl_go st (List.nodup_cons.1 hn).2 ((List.mem_cons.1 hy).resolve_left e), List.idxOf_cons_ne _ (Ne.symm e)]
      omega

/-! ### Writing -/

theorem intText_nat (n : Nat) : intText (n : Int) = natText n := by
  rw [intText, if_neg (by omega)]; simp

/-- The positions of the selected states, in the order of the parents in the file -/
noncomputable def posVals (B : BN V S K) (v : V) (pa : List V) : List Nat :=
  (assignmentSpace (scopeDom B pa)).map fun o => (B.states v).idxOf (B.sel v (asg o))

theorem scopeDom_in {B : BN V S K} {pa : List V} (hn : pa.Nodup) {o : Obs V S} (ho : o ∈ assignmentSpace (scopeDom B pa)) :
    FullObs (scopeDom B pa) o ∧ ∀ u ∈ pa, (asg o : V → S) u ∈ B.states u := by
  have hk : (Dict.keys (scopeDom B pa)).Nodup := by rw [scopeDom_keys]; exact hn
  have h := mem_assignmentSpace_fullObs hk ho
  exact ⟨h, fun u hu => h.inDom _ (List.mem_map.2 ⟨u, hu, rfl⟩)⟩

theorem detValuesArray {L : LabelStore V S} (hL : L.Lawful) {B : BN V S K} {f : DetFactor L} (hf : f.WF) (hd : ∀ p ∈ f.dom, p.2 = B.states p.1)
    {pa : List V} (hne : pa ≠ []) (hn : pa.Nodup) (hpa : ∀ w, w ∈ pa ↔ w ∈ f.rightVars) :
    f.valuesArray pa = .ok ⟨cards (scopeDom B pa), (assignmentSpace (scopeDom B pa)).map fun o => f.fn (asg o)⟩ := by
  have hget : ∀ w ∈ pa, Dict.get? f.dom w = some (B.states w) := by
    intro w hw
    obtain ⟨st, hst⟩ := Dict.mem_keys.1 (hf.right w ((hpa w).1 hw))
    rw [Dict.get?_of_mem hf.dom.keys hst, ← hd _ hst]
  have hmap : (pa.mapM fun v => do
      let d ← Dict.get f.dom v
      return (v, d)) = (.ok (scopeDom B pa) : Py (Dom V S)) := by
    refine mapM_ok fun w hw => ?_
    simp [Dict.get, hget w hw]
  have hvals : (assignmentSpace (scopeDom B pa)).mapM f.getValue =
      .ok ((assignmentSpace (scopeDom B pa)).map fun o => f.fn (asg o)) := by
    refine mapM_ok fun o ho => ?_
    refine DetFactor.getValue_full hL hf ?_
    refine (scopeDom_in hn ho).1.mono fun p hp => ?_
    obtain ⟨h1, h2⟩ := List.mem_filter.1 hp
    have h2 : p.1 ∈ f.rightVars := by simpa using h2
    exact List.mem_map.2 ⟨p.1, (hpa p.1).2 h2, by rw [← hd p h1]⟩
  rw [DetFactor.valuesArray]
  simp only [if_neg hne, hmap, py_ok_bind, hvals]
  rfl

variable {vt : VType}

/-- What is written for an endogenous variable -/
theorem equationOf_ok {m : DagModel (AnyFactor (storeOf vt : StoreImpl V S (Fl K)) (labelStoreOf vt : LabelStore V S)) V S}
    {B : BN V S K} (hB : B.Valid) (hN : B.Normalised) {v : V} (hv : v ∈ B.nodes)
    (h01 : ∀ a, B.InStates a → B.table v a = 0 ∨ B.table v a = 1)
    {f : AnyFactor (storeOf vt : StoreImpl V S (Fl K)) (labelStoreOf vt : LabelStore V S)}
    (hf : Dict.get? m.factors v = some (some f)) (ht : AnyTable B v f)
    {asInt : S → Py Int} {ofNat : Nat → S} (hint : ∀ i < (B.states v).length, asInt (ofNat i) = .ok (i : Int))
    (hlab : f.isDet = true → ∀ s ∈ B.states v, asInt s = .ok (((B.states v).idxOf s : Nat) : Int))
    {pa : List V} (hne : pa ≠ []) (hpn : (v :: pa).Nodup) (hpa : ∀ w, w ∈ pa ↔ w ∈ B.parents v) :
    ∃ l, equationOf ofNat m v pa = .ok l ∧ l.mapM asInt = .ok ((posVals B v pa).map fun (i : Nat) => (i : Int)) := by
  have hn := (List.nodup_cons.1 hpn).2
  have hvp : v ∉ B.parents v := fun h => (List.nodup_cons.1 hpn).1 ((hpa v).2 h)
  have hin : ∀ o ∈ assignmentSpace (scopeDom B pa), ∀ u ∈ B.parents v, (asg o : V → S) u ∈ B.states u :=
    fun o ho u hu => (scopeDom_in hn ho).2 u ((hpa u).2 hu)
  cases f with
  | multi g =>
    have ht : IsTable B v g := ht
    have hI := storeOf_lawful (V := V) (S := S) (α := Fl K) vt
    have hst := AnyTable.mem_dom (f := (.multi g : AnyFactor (storeOf vt : StoreImpl V S (Fl K)) (labelStoreOf vt : LabelStore V S))) ht
    have hdomout : ∀ w st, (w, st) ∈ domOut g.dom [v] ↔ w ∈ B.parents v ∧ (w, st) ∈ g.dom := by
      intro w st
      rw [domOut, List.mem_filter]
      constructor
      · rintro ⟨h1, h2⟩
        have h2 : w ≠ v := by simpa using h2
        exact ⟨((ht.vars w).1 (Dict.mem_keys_of_mem h1)).resolve_left h2, h1⟩
      · rintro ⟨h1, h2⟩
        refine ⟨h2, ?_⟩
        have : w ≠ v := by rintro rfl; exact hvp h1
        simpa using this
    have hparin : ∀ a, InDom (domOut g.dom [v]) a ↔ ∀ u ∈ B.parents v, a u ∈ B.states u := by
      intro a
      constructor
      · intro ha u hu
        obtain ⟨st, hst⟩ := Dict.mem_keys.1 ((ht.vars u).2 (.inr hu))
        have := ha (u, st) ((hdomout u st).2 ⟨hu, hst⟩)
        rwa [ht.dom _ hst] at this
      · intro ha p hp
        obtain ⟨h1, h2⟩ := (hdomout p.1 p.2).1 hp
        rw [ht.dom p h2]
        exact ha _ h1
    obtain ⟨d, d1, d2, d3, d4, d5, d6, d7⟩ := Props.toDeterministicWith_ok (arg := argmaxFl) (fun h1 h2 => argmaxFl_indicator h1 h2) vt ofNat
      ht.wf ht.left_eq hst (g := B.sel v) (fun a b hab => BN.sel_congr hB hv fun u hu =>
        hab u ((ht.vars u).2 (.inr hu)) (by rintro rfl; exact hvp hu))
      (by
        intro st hst a ha
        have := (BN.sel_ok hB hN hv h01 ((hparin a).1 ha)).1
        rwa [← ht.dom _ hst] at this)
      (by
        intro obs ho
        have hs : ∀ u ∈ v :: B.parents v, (asg obs : V → S) u ∈ B.states u := by
          intro u hu
          obtain ⟨st, hst⟩ := Dict.mem_keys.1 ((ht.vars u).2 (List.mem_cons.1 hu))
          have := ho.inDom _ hst
          rwa [ht.dom _ hst] at this
        rw [ht.value obs ho, BN.table_sel hB hN hv h01 hs]
        by_cases e : (asg obs : V → S) v = B.sel v (asg obs)
        · rw [if_pos e, if_pos e.symm]; rfl
        · rw [if_neg e, if_neg (Ne.symm e)]; rfl)
    have hL := labelStoreOf_lawful (V := V) (S := S) .numpy
    have hval := detValuesArray hL (B := B) d2 (fun p hp => ht.dom p (d3 ▸ hp)) hne hn (fun w => by
      rw [d5, List.mem_filter, hpa]
      have : w ∈ Dict.keys g.dom ↔ w = v ∨ w ∈ B.parents v := ht.vars w
      rw [this]
      constructor
      · intro h
        refine ⟨.inr h, ?_⟩
        have : w ≠ v := by rintro rfl; exact hvp h
        simpa using this
      · rintro ⟨h1, h2⟩
        exact h1.resolve_left (by simpa using h2))
    refine ⟨(assignmentSpace (scopeDom B pa)).map fun o => d.fn (asg o), ?_, ?_⟩
    · rw [equationOf, Dict.get, hf]
      simp only [py_ok_bind, d1, hval]
      rfl
    · rw [List.mapM_map, posVals, List.map_map]
      refine mapM_ok fun o ho => ?_
      simp only [Function.comp]
      rw [d7 _ ((hparin _).2 (hin o ho)), hint _ (List.idxOf_lt_length_of_mem (BN.sel_ok hB hN hv h01 (hin o ho)).1)]
  | det g =>
    have ht : DetTable B v g := ht
    have hL := labelStoreOf_lawful (V := V) (S := S) vt
    have hval := detValuesArray hL (B := B) ht.wf ht.dom hne hn (fun w => by rw [ht.right, hpa])
    refine ⟨(assignmentSpace (scopeDom B pa)).map fun o => g.fn (asg o), ?_, ?_⟩
    · rw [equationOf, Dict.get, hf]
      simp only [py_ok_bind, hval]
      rfl
    · rw [List.mapM_map, posVals, List.map_map]
      refine mapM_ok fun o ho => ?_
      simp only [Function.comp]
      have hpar := hin o ho
      obtain ⟨s1, s2⟩ := BN.sel_ok hB hN hv h01 hpar
      -- the selected state
      set s := B.sel v (asg o) with hs
      set a : V → S := upd (asg o) v s with ha
      have hao : FullObs g.dom (g.dom.map fun p => (p.1, a p.1)) := by
        refine fullObs_of_covers ?_ (covers_map g.dom a (fun v h => h))
        intro p hp
        rw [ht.dom p hp]
        rcases (ht.vars p.1).1 (Dict.mem_keys_of_mem hp) with e | e
        · rw [e, ha, upd_same]; exact s1
        · by_cases e' : p.1 = v
          · rw [e', ha, upd_same]; exact s1
          · rw [ha, upd_ne _ _ e']; exact hpar _ e
      have hc : ∀ w ∈ g.vars, (asg (g.dom.map fun p => (p.1, a p.1)) : V → S) w = a w := fun w hw =>
        over_of_get? (covers_map g.dom a (e := g.dom) (fun v h => h) w hw)
      obtain ⟨b, b1, b2⟩ := ht.value _ hao
      rw [DetFactor.eval_ok hL ht.wf hao ht.left] at b1
      have e1 : B.table v (asg (g.dom.map fun p => (p.1, a p.1))) = 1 := by
        have := s2 s s1
        rw [if_pos rfl] at this
        rw [← this]
        refine hB.scope v hv _ _ fun u hu => hc u ((ht.vars u).2 (List.mem_cons.1 hu))
      have hb : b = true := by
        by_contra hb
        rw [Bool.not_eq_true] at hb
        rw [e1, hb] at b2
        simp at b2
      subst hb
      have e2 : g.fn (asg (g.dom.map fun p => (p.1, a p.1))) = (asg (g.dom.map fun p => (p.1, a p.1)) : V → S) v := by
        simpa using b1
      rw [hc v ((ht.vars v).2 (.inl rfl)), ha, upd_same] at e2
      have e3 : g.fn (asg o) = g.fn (asg (g.dom.map fun p => (p.1, a p.1))) := by
        refine DetFactor.fn_congr hL ht.wf fun w hw => ?_
        have hw' := (ht.right w).1 hw
        rw [hc w (ht.wf.right w hw), ha, upd_ne]
        rintro rfl; exact hvp hw'
      rw [e3, e2]
      exact hlab rfl s s1

/-! ### Reading -/

omit [IsStrictOrderedRing K] [Inhabited S'] [DecidableEq S'] in
theorem scope_getElem {B : BN V S K} {pa : List V} (hn : pa.Nodup) {X : Type} (F : (V → S) → X)
    (hF : ∀ a b : V → S, (∀ u ∈ pa, a u = b u) → F a = F b) {a : V → S} (ha : ∀ u ∈ pa, a u ∈ B.states u) (dflt : X) :
    ((assignmentSpace (scopeDom B pa)).map fun o => F (asg o)).getD (ravel (cards (scopeDom B pa)) (coords (scopeDom B pa) a)) dflt = F a := by
  have hin : InDom (scopeDom B pa) a := by
    intro p hp
    obtain ⟨u, hu, rfl⟩ := List.mem_map.1 hp
    exact ha u hu
  rw [List.getD_eq_getElem?_getD, List.getElem?_map, assignmentSpace_getElem? hin]
  simp only [Option.map_some, Option.getD_some]
  refine hF _ _ fun u hu => ?_
  refine over_of_get? (covers_map (scopeDom B pa) a (e := scopeDom B pa) (fun v h => h) u ?_)
  rw [scopeDom_keys]; exact hu

theorem filter_left {X : Type} [DecidableEq X] {l : List X} {x : X} (h : x ∉ l) : ((l ++ [x]).filter fun w => w ∉ l) = [x] := by
  have h1 : l.filter (fun w => w ∉ l) = [] := by
    rw [List.filter_eq_nil_iff]
    intro w hw
    simpa using hw
  rw [List.filter_append, h1, List.nil_append, List.filter_cons, if_pos (by simpa using h), List.filter_nil]

theorem filter_right {X Y : Type} [DecidableEq X] {l : List (X × Y)} {r : List X} {x : X × Y} (hr : l.map Prod.fst = r) (h : x.1 ∉ r) :
    ((l ++ [x]).filter fun p => p.1 ∈ r) = l := by
  have h1 : l.filter (fun p => p.1 ∈ r) = l := by
    rw [List.filter_eq_self]
    intro p hp
    rw [← hr]
    exact decide_eq_true (List.mem_map.2 ⟨p, hp, rfl⟩)
  rw [List.filter_append, h1, List.filter_cons, if_neg (by simpa using h), List.filter_nil, List.append_nil]

/-- The equation that is read -/
theorem scmDet_ok {vt' : VType} {B : BN V S K} (hB : B.Valid) (hN : B.Normalised) {order : List V} (ho : order.Perm B.nodes)
    {lab : Nat → S'} (hl : Function.Injective lab) {nodes : List Str} {v : V} (hv : v ∈ B.nodes)
    (h01 : ∀ a, B.InStates a → B.table v a = 0 ∨ B.table v a = 1) {Q : V → List V} (hpn : (v :: Q v).Nodup)
    (hpa : ∀ w, w ∈ Q v ↔ w ∈ B.parents v) (hname : ∀ p ∈ B.parents v, ¬ fileName order p <:+: fileName order v)
    {ofFloat : Fl K → S'} (hof : ∀ i : Nat, ofFloat (.fin i) = lab i) :
    ∃ f, DetFactor.make (labelStoreOf vt' : LabelStore Str S') (fileDom order Q (fun w => (B.states w).length) lab v)
        ⟨[((posVals B v (Q v)).map fun (i : Nat) => (.fin (i : K) : Fl K)).length], ((posVals B v (Q v)).map fun (i : Nat) => (.fin (i : K) : Fl K)).map ofFloat⟩ none
        (some ((Dict.keys (fileDom order Q (fun w => (B.states w).length) lab v)).filter fun w => !isSub w (fileName order v))) = .ok f ∧
      DetTable (B.coded order lab nodes) (fileName order v) f := by
  have hL := labelStoreOf_lawful (V := Str) (S := S') vt'
  set pa := Q v with hQ
  have hall : ∀ w ∈ pa ++ [v], w ∈ B.nodes := by
    intro w hw
    rcases List.mem_append.1 hw with h | h
    · exact hB.parents v hv w ((hpa w).1 h)
    · rw [List.mem_singleton.1 h]; exact hv
  have hio : ∀ w ∈ pa ++ [v], w ∈ order := fun w hw => ho.mem_iff.2 (hall w hw)
  have hvo : v ∈ order := ho.mem_iff.2 hv
  have hscn : (pa ++ [v]).Nodup := (List.perm_append_singleton v pa).nodup_iff.2 hpn
  have hnv : fileName order v ∉ pa.map (fileName order) := by
    intro hc
    obtain ⟨u, hu, h⟩ := List.mem_map.1 hc
    have := fileName_inj (hio u (List.mem_append.2 (.inl hu))) h
    exact (List.nodup_cons.1 hpn).1 (this ▸ hu)
  set d : Dom Str S' := fileDom order Q (fun w => (B.states w).length) lab v with hd
  have hdd : d = (pa ++ [v]).map fun w => (fileName order w, (List.range (B.states w).length).map lab) := rfl
  have hkeys : Dict.keys d = (pa ++ [v]).map (fileName order) := by
    simp [hdd, Dict.keys, List.map_map, Function.comp_def]
  have hdok : DomOk d := by
    refine ⟨?_, ?_, ?_⟩
    · rw [hkeys]
      exact List.Nodup.map_on (fun u hu w _ h => fileName_inj (hio u hu) h) hscn
    · intro p hp
      obtain ⟨w, hw, rfl⟩ := List.mem_map.1 hp
      exact List.nodup_range.map hl
    · intro p hp
      obtain ⟨w, hw, rfl⟩ := List.mem_map.1 hp
      have := List.length_pos_iff.2 (hB.nonempty w (hall w hw))
      intro hc
      have := congrArg List.length hc
      simp only [List.length_map, List.length_range, List.length_nil] at this
      omega
  have hright : ((Dict.keys d).filter fun w => !isSub w (fileName order v)) = pa.map (fileName order) := by
    rw [hkeys, List.map_append, List.filter_append]
    have h1 : (pa.map (fileName order)).filter (fun w => !isSub w (fileName order v)) = pa.map (fileName order) := by
      rw [List.filter_eq_self]
      intro w hw
      obtain ⟨p, hp, rfl⟩ := List.mem_map.1 hw
      simpa [isSub] using hname p ((hpa p).1 hp)
    have h2 : ([v].map (fileName order)).filter (fun w => !isSub w (fileName order v)) = [] := by
      rw [List.filter_eq_nil_iff]
      intro w hw
      rw [List.map_cons, List.map_nil, List.mem_singleton] at hw
      subst hw
      simp [isSub, List.infix_refl]
    rw [h1, h2, List.append_nil]
  have hleft := filter_left (l := pa.map (fileName order)) hnv
  have hrdom := filter_right (l := pa.map fun w => (fileName order w, (List.range (B.states w).length).map lab)) (r := pa.map (fileName order))
    (x := (fileName order v, (List.range (B.states v).length).map lab)) (by simp [List.map_map, Function.comp_def]) hnv
  have hdd2 : d = (pa.map fun w => (fileName order w, (List.range (B.states w).length).map lab)) ++
      [(fileName order v, (List.range (B.states v).length).map lab)] := by
    rw [hdd, List.map_append]; rfl
  rw [← hdd2] at hrdom
  have hkeys2 : Dict.keys d = pa.map (fileName order) ++ [fileName order v] := by rw [hkeys, List.map_append]; rfl
  rw [← hkeys2] at hleft
  have hcards : cards (pa.map fun w => (fileName order w, (List.range (B.states w).length).map lab)) = cards (scopeDom B pa) := by
    simp [cards, scopeDom, List.map_map, Function.comp_def]
  have hvals : ((posVals B v pa).map fun (i : Nat) => (.fin (i : K) : Fl K)).map ofFloat = (posVals B v pa).map lab := by
    rw [List.map_map]
    exact List.map_congr_left fun i _ => hof i
  obtain ⟨f, f1, f2, f3, f4, f5, f6⟩ := DetFactor.make_ok hL (d := d) (values := (posVals B v pa).map lab) (left := none)
    (right := some (pa.map (fileName order))) (r := pa.map (fileName order)) (x := fileName order v) hdok rfl
    (by
      intro w hw
      rw [hkeys, List.map_append]
      exact List.mem_append.2 (.inl hw)) hleft
    (by rw [hrdom, hcards, List.length_map, posVals, List.length_map, assignmentSpace_length])
  have hvars : f.vars = (pa ++ [v]).map (fileName order) := by rw [DetFactor.vars, f3, hkeys]
  refine ⟨f, ?_, f2, f5, ?_, ?_, ?_, ?_⟩
  · rw [hright, hvals]
    have : ((posVals B v pa).map fun (i : Nat) => (.fin (i : K) : Fl K)).length = ((posVals B v pa).map lab).length := by simp
    rw [this]
    exact f1
  · intro w
    rw [f4, BN.coded_parents hvo, List.mem_map, List.mem_map]
    exact exists_congr fun u => and_congr_left fun _ => hpa u
  · intro w
    rw [hvars, BN.coded_parents hvo]
    simp only [List.mem_map, List.mem_append, List.mem_singleton]
    constructor
    · rintro ⟨u, h | rfl, rfl⟩
      · exact .inr ⟨u, (hpa u).1 h, rfl⟩
      · exact .inl rfl
    · rintro (rfl | ⟨u, h, rfl⟩)
      · exact ⟨v, .inr rfl, rfl⟩
      · exact ⟨u, .inl ((hpa u).2 h), rfl⟩
  · intro p hp
    rw [f3] at hp
    obtain ⟨w, hw, rfl⟩ := List.mem_map.1 hp
    exact (BN.coded_states (hio w hw)).symm
  · intro obs hobs
    have hin : InDom d (asg obs) := f3 ▸ hobs.inDom
    refine ⟨_, DetFactor.eval_ok hL f2 hobs f5, ?_⟩
    have hst : ∀ w ∈ pa ++ [v], decoded B order lab (asg obs) w ∈ B.states w ∧
        (B.states w).idxOf (decoded B order lab (asg obs) w) =
          ((List.range (B.states w).length).map lab).idxOf (asg obs (fileName order w)) := fun w hw =>
      idxOf_decoded hl (hB.nodupStates w (hall w hw)) (hin _ (List.mem_map.2 ⟨w, hw, rfl⟩))
    set b := decoded B order lab (asg obs) with hb
    have hco : coords (pa.map fun w => (fileName order w, (List.range (B.states w).length).map lab)) (asg obs) = coords (scopeDom B pa) b := by
      simp only [coords, scopeDom, List.map_map]
      refine List.map_congr_left fun w hw => ?_
      exact (hst w (List.mem_append.2 (.inl hw))).2.symm
    have hsel := BN.sel_ok hB hN hv h01 (a := b) fun u hu => (hst u (List.mem_append.2 (.inl ((hpa u).2 hu)))).1
    have hfn : f.fn (asg obs) = lab ((B.states v).idxOf (B.sel v b)) := by
      rw [f6 _ (hin.sub fun p hp => (List.mem_filter.1 hp).1), hrdom, hcards, hco, posVals, List.map_map]
      exact scope_getElem (B := B) (List.nodup_cons.1 hpn).2 (fun a => lab ((B.states v).idxOf (B.sel v a)))
        (fun a a' h => by rw [BN.sel_congr hB hv fun u hu => h u ((hpa u).2 hu)])
        (fun u hu => (hst u (List.mem_append.2 (.inl hu))).1) default
    have hobsv : asg obs (fileName order v) = lab ((B.states v).idxOf (b v)) := by
      have hmem : asg obs (fileName order v) ∈ (List.range (B.states v).length).map lab :=
        hin _ (List.mem_map.2 ⟨v, by simp, rfl⟩)
      have hlt := List.idxOf_lt_length_of_mem hmem
      have := List.getElem_idxOf hlt
      rw [List.getElem_map, List.getElem_range] at this
      rw [(hst v (by simp)).2, this]
    rw [BN.coded_table hvo, ← hb, BN.table_sel hB hN hv h01 (fun u hu => by
      rcases List.mem_cons.1 hu with rfl | hu
      · exact (hst _ (by simp)).1
      · exact (hst u (List.mem_append.2 (.inl ((hpa u).2 hu)))).1), hfn, hobsv]
    have : (lab ((B.states v).idxOf (B.sel v b)) = lab ((B.states v).idxOf (b v))) ↔ b v = B.sel v b := by
      constructor
      · intro h
        exact ((List.idxOf_inj hsel.1).1 (hl h)).symm
      · intro h; rw [h]
    by_cases e : b v = B.sel v b
    · rw [if_pos e, if_pos (by simpa using this.2 e)]
    · rw [if_neg e, if_neg (by simpa using fun h => e (this.1 h))]

theorem optChar_append (p : Char → Bool) (r : Str) : (optChar p r).1 ++ (optChar p r).2 = r := by
  cases r with
  | nil => rfl
  | cons c r => rw [optChar]; split <;> rfl

theorem optChar_none {p : Char → Bool} {c : Char} (h : p c = false) (r : Str) : optChar p (c :: r) = ([], c :: r) := by
  rw [optChar, h]; rfl

theorem takeNumE_lexer : Lexer takeNumE := by
  have h := takeNum_lexer
  refine ⟨fun s t r hs => ?_, ?_, ?_⟩
  · rw [takeNumE] at hs
    cases h1 : takeNum s with
    | none => rw [h1] at hs; cases hs
    | some p =>
      obtain ⟨t1, r1⟩ := p
      rw [h1] at hs
      obtain ⟨e1, n1⟩ := h.split _ _ _ h1
      simp only [Option.some.injEq, Prod.mk.injEq] at hs
      obtain ⟨rfl, rfl⟩ := hs
      refine ⟨?_, fun hc => n1 ?_⟩
      · rw [← e1]
        simp only [List.append_assoc, List.takeWhile_append_dropWhile, optChar_append]
      · simp only [List.append_eq_nil_iff] at hc
        exact hc.1.1.1
  · intro t ht c hc r
    rw [takeNumE, h.plain t ht c hc r]
    have hE : (c == 'E') = false := by rcases hc with rfl | rfl | rfl <;> decide
    obtain ⟨d1, _, d3, d4⟩ := hc.not_digit
    have hs : (c == '-' || c == '+') = false := by simp [d3, d4]
    have o1 : optChar (· == 'E') (c :: r) = ([], c :: r) := optChar_none (p := (· == 'E')) hE r
    have o2 : optChar (fun c => c == '-' || c == '+') (c :: r) = ([], c :: r) := optChar_none (p := fun c => c == '-' || c == '+') hs r
    simp only [o1, o2]
    simp [d1]
  · intro c h1 h2 h3 h4 r
    rw [takeNumE, h.skip c h1 h2 h3 h4 r]

end Uai
end Verif
