import Verif.Props.Deterministic
import Verif.Props.Util

/-!
# C17, C19 and C22 exactly: when the conversion to a deterministic factor is lossless, when canonical equations are refused and when a graph survives its string
-/

set_option linter.unusedSectionVars false
set_option linter.unusedSimpArgs false

namespace Verif.Props
open Verif

variable {V S α : Type} [DecidableEq V] [DecidableEq S] [Inhabited S] [Inhabited α] [AddCommMonoid α]

/-- **C17** what comes back from the round trip, for every degenerate table: where the table has a one, the result has a one exactly when the state is its own
index.  So the round trip is lossless exactly when every state that is selected somewhere is its own index. -/
theorem C17_exact [One α] [LinearOrder α] (h01 : (0 : α) < 1) (vt : VType) (ofNat : Nat → S)
    {f : Factor (storeOf vt : StoreImpl V S α)} (hf : f.WF) {x : V} {st : List S} (hx : f.leftVars = [x])
    (hst : (x, st) ∈ f.dom) (hdeg : Degenerate f x) :
    ∃ d r, f.toDeterministic ofNat = .ok d ∧ d.toMultinomial (storeOf .numpy : StoreImpl V S α) = .ok r ∧ r.dom = f.dom ∧
      (∀ obs, FullObs f.dom obs → f.getValue obs = .ok 1 →
        r.getValue obs = .ok (if ofNat (st.idxOf (asg obs x)) = asg obs x then 1 else 0)) ∧
      ((∀ obs, FullObs f.dom obs → r.getValue obs = f.getValue obs) ↔
        ∀ obs, FullObs f.dom obs → f.getValue obs = .ok 1 → ofNat (st.idxOf (asg obs x)) = asg obs x) := by
  have hI := storeOf_lawful (V := V) (S := S) (α := α) vt
  have hL := labelStoreOf_lawful (V := V) (S := S) .numpy
  have hd := hf.domOk hI
  obtain ⟨g, hg1, hg2, hg3⟩ := hdeg
  have hxv : x ∈ f.vars := Dict.mem_keys_of_mem (p := (x, st)) hst
  obtain ⟨d, hmake, hdwf, d3, d5, _, hrd, hfn⟩ := toDeterministicWith_ok (arg := argmaxList) (fun h1 h2 => argmax_indicator h01 h1 h2) vt ofNat
    hf hx hst hg1 hg2 hg3
  obtain ⟨r, r1, _, r3, _, _, r6⟩ := C16_to_multinomial (α := α) .numpy hdwf d5
  have h10 : (1 : α) ≠ 0 := h01.ne'
  have hin : ∀ obs, FullObs f.dom obs → InDom (domOut f.dom [x]) (asg obs) := fun obs ho => ho.inDom.sub fun p hp => (List.mem_filter.1 hp).1
  have hval : ∀ obs, FullObs f.dom obs → r.getValue obs = .ok (if ofNat (st.idxOf (g (asg obs))) = asg obs x then 1 else 0) := by
    intro obs ho
    have hgx : Dict.get? obs x = some (asg obs x) := ho.covers x hxv
    obtain ⟨y, y1, _, y3⟩ := r6 obs (asg obs x) (by rw [d3]; exact ho) hgx
    have hfr : FullObs d.rightDomain obs := by
      rw [hrd]; exact ho.mono fun p hp => (List.mem_filter.1 hp).1
    rw [DetFactor.getValue_full hL hdwf hfr] at y1
    rw [y3, ← Except.ok.inj y1, hfn _ (hin obs ho)]
  have hone : ∀ obs, FullObs f.dom obs → (f.getValue obs = .ok 1 ↔ g (asg obs) = asg obs x) := by
    intro obs ho
    rw [hg3 obs ho]
    by_cases h : g (asg obs) = asg obs x
    · rw [if_pos h]; simp [h]
    · rw [if_neg h]
      constructor
      · intro e; exact absurd (Except.ok.inj e).symm h10
      · intro e; exact absurd e h
  refine ⟨d, r, hmake, r1, r3.trans d3, fun obs ho h1 => ?_, fun h obs ho h1 => ?_, fun h obs ho => ?_⟩
  · rw [hval obs ho, (hone obs ho).1 h1]
  · have e1 := h obs ho
    rw [hval obs ho, h1, (hone obs ho).1 h1] at e1
    by_contra hne
    rw [if_neg hne] at e1
    exact h10 (Except.ok.inj e1).symm
  · -- the same observation with the selected state
    have hga := hg2 st hst _ (hin obs ho)
    set obs' : Obs V S := (x, g (asg obs)) :: obs with hobs'
    have hne : ∀ v, v ≠ x → Dict.get? obs' v = Dict.get? obs v := by
      intro v hv
      rw [hobs', Dict.get?, if_neg (Ne.symm hv)]
    have hx' : Dict.get? obs' x = some (g (asg obs)) := by rw [hobs', Dict.get?, if_pos rfl]
    have ho' : FullObs f.dom obs' := by
      intro p hp
      by_cases hpx : p.1 = x
      · have e1 : Dict.get? f.dom p.1 = some p.2 := Dict.get?_of_mem hd.keys hp
        have e2 : Dict.get? f.dom x = some st := Dict.get?_of_mem hd.keys hst
        rw [hpx, e2] at e1
        exact ⟨g (asg obs), by rw [← Option.some.inj e1]; exact hga, by rw [hpx]; exact hx'⟩
      · obtain ⟨s, hs, hg⟩ := ho p hp
        exact ⟨s, hs, by rw [hne _ hpx]; exact hg⟩
    have hgg : g (asg obs') = g (asg obs) := hg1 _ _ fun v _ hv => by simp only [asg, over, hne v hv]
    have hax : asg obs' x = g (asg obs) := over_of_get? hx'
    have := h obs' ho' ((hone obs' ho').2 (by rw [hgg, hax]))
    rw [hax] at this
    rw [hval obs ho, hg3 obs ho, this]

/-- A table that selects the state `1` only: the round trip is lossless though the other state is not its own index; a table that selects the other state is lost. -/
theorem C17_exact_example :
    (do let f ← Factor.make (storeOf .numpy : StoreImpl Char Char ℤ) [('X', ['a', '1'])] [0, 1] (some ['X']) none
        let d ← f.toDeterministic (fun n => Char.ofNat (48 + n))
        let r ← d.toMultinomial (storeOf .numpy : StoreImpl Char Char ℤ)
        let f' ← Factor.make (storeOf .numpy : StoreImpl Char Char ℤ) [('X', ['a', '1'])] [1, 0] (some ['X']) none
        let d' ← f'.toDeterministic (fun n => Char.ofNat (48 + n))
        let r' ← d'.toMultinomial (storeOf .numpy : StoreImpl Char Char ℤ)
        return (← r.valuesList, ← r'.valuesList)) = (.ok ([0, 1], [0, 0]) : Py _) := by
  decide +kernel

/-- **C19** the default store refuses the canonical equation for **every** number of endogenous parents other than one. -/
theorem C19_numpy_refuses {d : Dom V S} {x u : V} {pa : List V}
    (hx : ((Dict.keys d).filter fun v => v ∉ pa ∧ v ≠ u) = [x]) (hu : u ∈ Dict.keys d) (hpa : ∀ v ∈ pa, v ∈ Dict.keys d)
    (hup : u ∉ pa) (hl : pa.length ≠ 1) :
    canonicalDeterministic (labelStoreOf .numpy : LabelStore V S) d u pa = .error .valueError := by
  have hxmem : x ∈ ((Dict.keys d).filter fun v => v ∉ pa ∧ v ≠ u) := by rw [hx]; simp
  obtain ⟨hxd, hxp⟩ := List.mem_filter.1 hxmem
  have hxp : x ∉ pa ∧ x ≠ u := by simpa using hxp
  obtain ⟨st, gst⟩ := Option.isSome_iff_exists.1 (Dict.get?_isSome.2 hxd)
  obtain ⟨us, gus⟩ := Option.isSome_iff_exists.1 (Dict.get?_isSome.2 hu)
  obtain ⟨pd, hpd, kpd, _⟩ := subdomain_ok hpa
  have hsub1 : subdomain d [u] = .ok [(u, us)] := by
    simp [subdomain, Dict.get, gus, List.mapM_cons, List.mapM_nil]
  have hnew : Dict.merge (Dict.merge [(x, st)] [(u, us)]) pd = (x, st) :: (u, us) :: pd := by
    rw [merge_disjoint (d1 := [(x, st)]), merge_disjoint]
    · rfl
    · intro v hv
      rw [kpd]
      rcases (by simpa [Dict.keys] using hv : v = x ∨ v = u) with rfl | rfl
      · exact hxp.1
      · exact hup
    · intro v hv
      rcases (by simpa [Dict.keys] using hv : v = x) with rfl
      simpa [Dict.keys] using hxp.2
  have hr : (Dict.keys ((x, st) :: (u, us) :: pd)).filter (fun v => v ∉ [x]) = u :: pa := by
    simp only [Dict.keys_cons, kpd]
    rw [List.filter_cons_of_neg (by simp), List.filter_cons_of_pos (by simpa using Ne.symm hxp.2)]
    rw [List.filter_eq_self.2]
    intro v hv
    have : v ≠ x := fun e => hxp.1 (e ▸ hv)
    simpa using this
  have hleft : ((Dict.keys ((x, st) :: (u, us) :: pd)).filter fun v => v ∉ u :: pa) = [x] := by
    simp only [Dict.keys_cons, kpd]
    rw [List.filter_cons_of_pos (by simp [hxp.1, hxp.2]), List.filter_cons_of_neg (by simp)]
    rw [List.filter_eq_nil_iff.2]
    intro v hv; simp [hv]
  have hrd : (((x, st) :: (u, us) :: pd : Dom V S).filter fun p => p.1 ∈ u :: pa) = (u, us) :: pd := by
    rw [List.filter_cons_of_neg (by simp [hxp.1, hxp.2]), List.filter_cons_of_pos (by simp)]
    rw [List.filter_eq_self.2]
    intro p hp
    have : p.1 ∈ pa := by rw [← kpd]; exact Dict.mem_keys_of_mem hp
    simp [this]
  have hlen : pd.length = pa.length := by rw [← kpd]; simp [Dict.keys]
  rw [canonicalDeterministic, hx]
  simp only [hpd, py_ok_bind, Dict.get, gst, hsub1, hnew]
  simp only [DetFactor.make, Factor.setVariables, py_ok_bind, hr, hleft, hrd]
  set n := (product (List.replicate (assignmentSpace pd).length st)).length
  have hbad : ∀ (m : Nat) (flat : List S), (labelStoreOf .numpy : LabelStore V S).ofArray ((u, us) :: pd) ⟨[n, m], flat⟩ = .error .valueError := by
    intro m flat
    have hm : NumpyStore.mk? ((u, us) :: pd) (⟨[n, m], flat⟩ : NdArray S) = .error .valueError := by
      refine if_neg fun e => ?_
      have := congrArg List.length e
      simp [cards] at this
      omega
    exact hm
  simp [hbad]

/-- Three parents and none meet the hypotheses. -/
example : canonicalDeterministic (labelStoreOf .numpy : LabelStore Char Char)
    [('X', ['a', 'b']), ('P', ['c']), ('Q', ['c', 'd']), ('R', ['c']), ('U', ['0', '1', '2', '3'])] 'U' ['P', 'Q', 'R'] = .error .valueError :=
  C19_numpy_refuses (x := 'X') (by decide) (by decide) (by decide) (by decide) (by decide)

/-- **C22** a graph of two or more nodes survives its string exactly when every node has an edge. -/
theorem C22_exact {g : DiGraph Str} (hg : g.WF) (hn : ∀ v ∈ g.nodes, NameOk v) (h2 : 2 ≤ g.nodes.length) :
    ∃ s g', dag2str g = .ok s ∧ str2dag s = .ok g' ∧ (∀ e, e ∈ g'.edges ↔ e ∈ g.edges) ∧
      ((∀ v, v ∈ g'.nodes ↔ v ∈ g.nodes) ↔ ∀ v ∈ g.nodes, ∃ e ∈ g.edges, v = e.1 ∨ v = e.2) := by
  obtain ⟨s, g', h1, h3, _, h4, h5⟩ := C22_roundtrip_partial hg hn h2
  refine ⟨s, g', h1, h3, h4, fun h v hv => (h5 v).1 ((h v).2 hv), fun h v => ?_⟩
  rw [h5]
  refine ⟨?_, h v⟩
  rintro ⟨e, he, rfl | rfl⟩
  · exact (hg.ends e he).1
  · exact (hg.ends e he).2

/-- **C22** the string of the empty graph cannot be read. -/
theorem C22_empty : (do let s ← dag2str DiGraph.empty; str2dag s) = .error .indexError := by decide +kernel

end Verif.Props
