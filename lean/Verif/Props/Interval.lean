import Verif.Factor.Interval
import Verif.Props.ExNet

/-!
# Interval results of several models (C50)
-/

set_option linter.unusedSectionVars false
set_option linter.unusedSimpArgs false

namespace Verif.Props
open Verif

/-- `lo` and `hi` are the least and the greatest of the numbers. -/
def TightBounds {K : Type} [LE K] (lo hi : K) (xs : List K) : Prop :=
  lo ∈ xs ∧ hi ∈ xs ∧ ∀ x ∈ xs, lo ≤ x ∧ x ≤ hi

section
variable {V S K : Type} [DecidableEq V] [DecidableEq S] [Inhabited S] [Field K] [LinearOrder K]

theorem dictEq_mem {d1 d2 : Dom V S} (h1 : (Dict.keys d1).Nodup) (h2 : (Dict.keys d2).Nodup) (h : dictEq d1 d2)
    {p : V × List S} (hp : p ∈ d2) : p ∈ d1 := by
  have hsub : Dict.keys d1 ⊆ Dict.keys d2 := by
    intro v hv
    obtain ⟨st, hst⟩ := Dict.mem_keys.1 hv
    exact Dict.mem_keys_of_mem (Dict.mem_of_get? (h.2 _ hst))
  have hl : (Dict.keys d2).length ≤ (Dict.keys d1).length := by simp [Dict.keys, h.1]
  have hk := (List.subperm_of_subset h1 hsub).perm_of_length_le hl
  obtain ⟨st, hst⟩ := Dict.mem_keys.1 (hk.mem_iff.2 (Dict.mem_keys_of_mem hp))
  have e1 := h.2 _ hst
  have e2 := Dict.get?_of_mem h2 (k := p.1) (v := p.2) hp
  simp only at e1
  rw [e1] at e2
  have : (p.1, st) = p := by rw [Option.some.inj e2]
  exact this ▸ hst

/-- Bounds of the numbers given by python. -/
theorem C50_scalars {x : K} {xs : List K} :
    ∃ lo hi, Fl.pyMin ((x :: xs).map Fl.fin) = .ok (.fin lo) ∧ Fl.pyMax ((x :: xs).map Fl.fin) = .ok (.fin hi) ∧
      TightBounds lo hi (x :: xs) := by
  refine ⟨xs.foldl min x, xs.foldl max x, ?_, ?_, (foldl_min_spec xs x).1, (foldl_max_spec xs x).1,
    fun y hy => ⟨(foldl_min_spec xs x).2 y hy, (foldl_max_spec xs x).2 y hy⟩⟩
  · rw [List.map_cons, Fl.pyMin, (foldl_min_fin xs x).2]
  · rw [List.map_cons, Fl.pyMax, (foldl_max_fin xs x).2]

variable {I J : StoreImpl V S (Fl K)} (N : BoundNames V S)

/-- Values of the factors at an assignment, when they are finite. -/
def FiniteAt (fs : List (Factor J)) (xs : List K) (o : Obs V S) : Prop :=
  fs.map (fun f => f.getValue o) = xs.map fun x => .ok (Fl.fin x)

/-- Factors with finite values -/
def AllFinite (f : Factor J) : Prop := ∀ o, FullObs f.dom o → ∃ x : K, f.getValue o = .ok (.fin x)

theorem fromPrecise_sem (hI : I.Lawful) (hJ : J.Lawful) {f : Factor J} {fs : List (Factor J)} (hwf : ∀ g ∈ f :: fs, g.WF)
    (hdom : ∀ g ∈ f :: fs, dictEq f.dom g.dom) (hfin : ∀ g ∈ f :: fs, AllFinite g) (hb : N.bound ∉ f.vars) :
    ∃ r, IFactor.fromPrecise N I (f :: fs) = .ok r ∧ I.WF r.store ∧ I.dom r.store = (N.bound, [N.low, N.up]) :: f.dom ∧
      r.leftVars N = f.leftVars ∧
      ∀ a, InDom f.dom a → ∃ lo hi xs, (f :: fs).map (fun g => g.sem a) = xs.map Fl.fin ∧ TightBounds lo hi xs ∧
        (a N.bound = N.low → I.sem r.store a = .fin lo) ∧ (a N.bound = N.up → I.sem r.store a = .fin hi) := by
  have hd := (hwf f List.mem_cons_self).domOk hJ
  let val : Factor J → (V → S) → K := fun g a => match g.sem a with | .fin x => x | _ => 0
  have hsub : ∀ g ∈ f :: fs, ∀ p ∈ g.dom, p ∈ f.dom := fun g hg p hp =>
    dictEq_mem hd.keys ((hwf g hg).domOk hJ).keys (hdom g hg) hp
  have hval : ∀ g ∈ f :: fs, ∀ a, InDom f.dom a → g.sem a = .fin (val g a) := by
    intro g hg a ha
    have ha' : InDom g.dom a := ha.sub (hsub g hg)
    have hc := covers_map g.dom a (e := g.dom) fun v hv => hv
    obtain ⟨x, hx⟩ := hfin g hg _ (fullObs_of_covers ha' hc)
    rw [Factor.getValue_ok hJ (hwf g hg) ha' hc] at hx
    simp only [val]
    rw [Except.ok.inj hx]
  let rowOf : Obs V S → List K := fun o => (f :: fs).map fun g => val g (asg o)
  have hrow : ∀ o ∈ assignmentSpace f.dom, (f :: fs).mapM (fun g => g.getValue o) = .ok ((rowOf o).map Fl.fin) := by
    intro o ho
    have hfo := mem_assignmentSpace_fullObs hd.keys ho
    have : (f :: fs).mapM (fun g => g.getValue o) = .ok ((f :: fs).map fun g => Fl.fin (val g (asg o))) :=
      mapM_ok fun g hg => by
        rw [Factor.getValue_full hJ (hwf g hg) (hfo.mono (hsub g hg)), hval g hg _ hfo.inDom]
    rw [this]; simp [rowOf]
  let lo : Obs V S → K := fun o => (fs.map fun g => val g (asg o)).foldl min (val f (asg o))
  let hi : Obs V S → K := fun o => (fs.map fun g => val g (asg o)).foldl max (val f (asg o))
  have hrows := mapM_ok hrow
  have hlows : ((assignmentSpace f.dom).map fun o => (rowOf o).map Fl.fin).mapM Fl.npMin
      = .ok ((assignmentSpace f.dom).map fun o => Fl.fin (lo o)) := by
    have := mapM_ok (f := fun r : List (Fl K) => Fl.npMin r)
      (g := fun r => match Fl.npMin r with | .ok x => x | .error _ => default)
      (l := (assignmentSpace f.dom).map fun o => (rowOf o).map Fl.fin) (by
        intro r hr
        obtain ⟨o, _, rfl⟩ := List.mem_map.1 hr
        simp [rowOf, Fl.npMin])
    rw [show (fun r : List (Fl K) => Fl.npMin r) = Fl.npMin from rfl] at this
    rw [this, List.map_map]
    congr 1
    refine List.map_congr_left fun o _ => ?_
    have := (foldl_min_fin (fs.map fun g => val g (asg o)) (val f (asg o))).1
    simpa [rowOf, Fl.npMin, lo, Function.comp_def] using this
  have hups : ((assignmentSpace f.dom).map fun o => (rowOf o).map Fl.fin).mapM Fl.npMax
      = .ok ((assignmentSpace f.dom).map fun o => Fl.fin (hi o)) := by
    have := mapM_ok (f := fun r : List (Fl K) => Fl.npMax r)
      (g := fun r => match Fl.npMax r with | .ok x => x | .error _ => default)
      (l := (assignmentSpace f.dom).map fun o => (rowOf o).map Fl.fin) (by
        intro r hr
        obtain ⟨o, _, rfl⟩ := List.mem_map.1 hr
        simp [rowOf, Fl.npMax])
    rw [show (fun r : List (Fl K) => Fl.npMax r) = Fl.npMax from rfl] at this
    rw [this, List.map_map]
    congr 1
    refine List.map_congr_left fun o _ => ?_
    have := (foldl_max_fin (fs.map fun g => val g (asg o)) (val f (asg o))).1
    simpa [rowOf, Fl.npMax, hi, Function.comp_def] using this
  have hlen : (assignmentSpace f.dom).length = (cards f.dom).prod := by
    simp [assignmentSpace, stateSpace, length_product, cards, Function.comp_def]
  obtain ⟨r, h1, h2, h3, h4, h5⟩ := IFactor.make_ok hI N (d := f.dom) (left := f.leftVars)
    (lows := (assignmentSpace f.dom).map fun o => Fl.fin (lo o)) (ups := (assignmentSpace f.dom).map fun o => Fl.fin (hi o))
    hd hb (by simpa using hlen) (by simpa using hlen)
  refine ⟨r, ?_, h2, h3, ?_, fun a ha => ?_⟩
  · rw [IFactor.fromPrecise, if_neg (not_not.2 hdom), hrows]
    simp only [py_ok_bind]
    rw [hlows]
    simp only [py_ok_bind]
    rw [hups]
    exact h1
  · rw [IFactor.leftVars, IFactor.vars, h3, Dict.keys_cons, h4]
    have e1 : (N.bound :: Dict.keys f.dom).filter (fun v => v ≠ N.bound) = Dict.keys f.dom := by
      rw [List.filter_cons_of_neg (by simp), List.filter_eq_self]
      intro v hv
      have : v ≠ N.bound := fun e => hb (e ▸ hv)
      simpa using this
    rw [e1]
    have e2 : f.leftVars = (Dict.keys f.dom).filter fun v => v ∉ f.rightVars := rfl
    conv_rhs => rw [e2]
    refine List.filter_congr fun v hv => ?_
    have hv' : v ∈ f.leftVars ↔ v ∉ f.rightVars := by rw [e2, List.mem_filter]; simp [hv]
    have hvn : v ∈ N.bound :: Dict.keys f.dom := List.mem_cons_of_mem _ hv
    simp only [List.mem_filter, hvn, true_and, decide_eq_true_eq, not_not, hv']
  · have hget := assignmentSpace_getElem? ha
    have hasg : ∀ v ∈ Dict.keys f.dom, (asg (f.dom.map fun p => (p.1, a p.1)) : V → S) v = a v := by
      intro v hv
      rw [asg, over_of_get? (covers_map f.dom a (e := f.dom) (fun v hv => hv) v hv)]
    have hvala : ∀ g ∈ f :: fs, val g (asg (f.dom.map fun p => (p.1, a p.1))) = val g a := by
      intro g hg
      simp only [val]
      rw [(hwf g hg).sem_congr hJ fun v hv => hasg v ?_]
      obtain ⟨st, hst⟩ := Dict.mem_keys.1 hv
      exact Dict.mem_keys_of_mem (hsub g hg _ hst)
    have hfs : (fs.map fun g => val g (asg (f.dom.map fun p => (p.1, a p.1)))) = fs.map fun g => val g a :=
      List.map_congr_left fun g hg => hvala g (List.mem_cons_of_mem _ hg)
    refine ⟨(fs.map fun g => val g a).foldl min (val f a), (fs.map fun g => val g a).foldl max (val f a),
      (f :: fs).map fun g => val g a, ?_, ⟨(foldl_min_spec _ _).1, (foldl_max_spec _ _).1,
        fun y hy => ⟨(foldl_min_spec _ _).2 y hy, (foldl_max_spec _ _).2 y hy⟩⟩, fun hl => ?_, fun hl => ?_⟩
    · rw [List.map_map]
      exact List.map_congr_left fun g hg => hval g hg a ha
    · rw [(h5 a ha).1 hl, List.getD_eq_getElem?_getD, List.getElem?_map, hget]
      simp only [Option.map_some, Option.getD_some, lo, hfs, hvala f List.mem_cons_self]
    · rw [(h5 a ha).2 hl, List.getD_eq_getElem?_getD, List.getElem?_map, hget]
      simp only [Option.map_some, Option.getD_some, hi, hfs, hvala f List.mem_cons_self]

/-- Looking up a bound of an interval factor. -/
theorem iget_ok (hI : I.Lawful) {r : IFactor I} (hw : I.WF r.store) {d : Dom V S} (hb : N.bound ∉ Dict.keys d)
    (hdom : I.dom r.store = (N.bound, [N.low, N.up]) :: d) {o : Obs V S} (ho : FullObs d o) {s : S} (hs : s = N.low ∨ s = N.up) :
    r.getValue ((N.bound, s) :: o) = .ok (I.sem r.store (upd (asg o) N.bound s)) := by
  have hne : ∀ p ∈ d, p.1 ≠ N.bound := fun p hp e => hb (e ▸ Dict.mem_keys_of_mem hp)
  refine hI.getValue_ok hw ?_ ?_
  · rw [hdom]
    intro p hp
    rcases List.mem_cons.1 hp with rfl | hp
    · rcases hs with rfl | rfl <;> simp
    · rw [upd_ne _ _ (hne p hp)]; exact ho.inDom p hp
  · rw [hdom]
    intro v hv
    rw [Dict.keys_cons] at hv
    rcases List.mem_cons.1 hv with rfl | hv
    · simp [Dict.get?]
    · have : v ≠ N.bound := fun e => hb (e ▸ hv)
      rw [upd_ne _ _ this, ← ho.covers v hv]
      simp [Dict.get?, Ne.symm this]

/-- **C50** the interval factor of a list of factors has their variables; at every joint state its bounds are the
least and the greatest of their values. -/
theorem C50_envelope (vt wt : VType) {fs : List (Factor (storeOf vt : StoreImpl V S (Fl K)))} {f : Factor (storeOf vt)}
    (hwf : ∀ g ∈ f :: fs, g.WF) (hdom : ∀ g ∈ f :: fs, dictEq f.dom g.dom) (hfin : ∀ g ∈ f :: fs, AllFinite g)
    (hb : N.bound ∉ f.vars) :
    ∃ r, IFactor.fromPrecise N (storeOf wt) (f :: fs) = .ok r ∧ r.dom N = f.dom ∧ r.leftVars N = f.leftVars ∧
      ∀ o, FullObs f.dom o → ∃ lo hi xs, FiniteAt (f :: fs) xs o ∧ TightBounds lo hi xs ∧
        r.getValue ((N.bound, N.low) :: o) = .ok (.fin lo) ∧ r.getValue ((N.bound, N.up) :: o) = .ok (.fin hi) := by
  have hI := storeOf_lawful (V := V) (S := S) (α := Fl K) wt
  have hJ := storeOf_lawful (V := V) (S := S) (α := Fl K) vt
  obtain ⟨r, h1, h2, h3, h4, h5⟩ := fromPrecise_sem N hI hJ hwf hdom hfin hb
  refine ⟨r, h1, ?_, h4, fun o ho => ?_⟩
  · rw [IFactor.dom, h3, List.filter_cons_of_neg (by simp), List.filter_eq_self]
    intro p hp
    have : p.1 ≠ N.bound := fun e => hb (e ▸ Dict.mem_keys_of_mem hp)
    simpa using this
  · have hne : ∀ p ∈ f.dom, p.1 ≠ N.bound := fun p hp e => hb (e ▸ Dict.mem_keys_of_mem hp)
    have hd := (hwf f List.mem_cons_self).domOk hJ
    have hup : ∀ s, InDom f.dom (upd (asg o) N.bound s) := fun s p hp => by
      rw [upd_ne _ _ (hne p hp)]; exact ho.inDom p hp
    have hsem : ∀ g ∈ f :: fs, ∀ s, g.sem (upd (asg o) N.bound s) = g.sem (asg o) := by
      intro g hg s
      refine (hwf g hg).sem_congr hJ fun v hv => upd_ne _ _ ?_
      obtain ⟨st, hst⟩ := Dict.mem_keys.1 hv
      exact hne _ (dictEq_mem hd.keys ((hwf g hg).domOk hJ).keys (hdom g hg) hst)
    obtain ⟨lo, hi, xs, g1, g2, g3, _⟩ := h5 _ (hup N.low)
    obtain ⟨lo', hi', xs', g1', g2', _, g4'⟩ := h5 _ (hup N.up)
    have hx : xs' = xs := by
      refine List.map_injective_iff.2 (fun a b h => by injection h) (?_ : xs'.map Fl.fin = xs.map Fl.fin)
      rw [← g1, ← g1']
      exact List.map_congr_left fun g hg => by rw [hsem g hg, hsem g hg]
    subst hx
    refine ⟨lo, hi', xs', ?_, ⟨g2.1, g2'.2.1, fun x hx => ⟨(g2.2.2 x hx).1, (g2'.2.2 x hx).2⟩⟩, ?_, ?_⟩
    · have hm : xs'.map (fun x => (Except.ok (Fl.fin x) : Py (Fl K))) = (xs'.map Fl.fin).map Except.ok := by
        rw [List.map_map]; rfl
      rw [FiniteAt, hm, ← g1', List.map_map]
      refine List.map_congr_left fun g hg => ?_
      have hfo : FullObs g.dom o := ho.mono fun p hp =>
        dictEq_mem hd.keys ((hwf g hg).domOk hJ).keys (hdom g hg) hp
      rw [Factor.getValue_full hJ (hwf g hg) hfo, Function.comp_apply, hsem g hg]
    · rw [iget_ok N hI h2 hb h3 ho (.inl rfl), g3 (by simp)]
    · rw [iget_ok N hI h2 hb h3 ho (.inr rfl), g4' (by simp)]

/-- Restriction of an interval factor. -/
theorem irestrict_ok (hI : I.Lawful) {r : IFactor I} (hw : I.WF r.store) {d : Dom V S} (hd : DomOk d) (hb : N.bound ∉ Dict.keys d)
    (hdom : I.dom r.store = (N.bound, [N.low, N.up]) :: d) {obs : Obs V S} (ho : ObsOk d obs) (hob : N.bound ∉ Dict.keys obs) :
    ∃ r', r.restrict N obs = .ok r' ∧ I.WF r'.store ∧
      I.dom r'.store = (N.bound, [N.low, N.up]) :: d.filter (fun p => p.1 ∉ Dict.keys obs) ∧
      ∀ a, InDom (d.filter fun p => p.1 ∉ Dict.keys obs) a → (a N.bound = N.low ∨ a N.bound = N.up) →
        I.sem r'.store a = I.sem r.store (over obs a) := by
  have hfilt : ((N.bound, [N.low, N.up]) :: d).filter (fun p => p.1 ∉ Dict.keys obs)
      = (N.bound, [N.low, N.up]) :: d.filter (fun p => p.1 ∉ Dict.keys obs) := by
    rw [List.filter_cons_of_pos (by simpa using hob)]
  by_cases hno : ∀ v ∈ Dict.keys obs, v ∉ Dict.keys (I.dom r.store)
  · refine ⟨r, by rw [IFactor.restrict, if_pos hno], hw, ?_, fun a _ _ => ?_⟩
    · rw [hdom, ← hfilt, eq_comm, List.filter_eq_self]
      intro p hp
      have : p.1 ∉ Dict.keys obs := fun hk => hno _ hk (by rw [hdom]; exact Dict.mem_keys_of_mem hp)
      simpa using this
    · exact hI.sem_congr hw fun v hv => by rw [over_of_not_mem fun hk => hno v hk hv]
  · have hobs : ObsOk (I.dom r.store) obs := by
      rw [hdom]
      intro p hp s hs
      rcases List.mem_cons.1 hp with rfl | hp
      · exact absurd (Dict.mem_keys_of_mem (Dict.mem_of_get? hs)) hob
      · exact ho p hp s hs
    obtain ⟨st, g1, g2, g3, g4⟩ := hI.restrict_ok hw hobs
    rw [hdom, hfilt] at g3
    let d' := d.filter fun p => p.1 ∉ Dict.keys obs
    have hd' : DomOk d' := hd.filter fun v => v ∉ Dict.keys obs
    have hb' : N.bound ∉ Dict.keys d' := by
      rw [Dict.keys_filter_key d (fun v => v ∉ Dict.keys obs)]
      exact fun h => hb (List.mem_filter.1 h).1
    have hne : ∀ p ∈ d', p.1 ≠ N.bound := fun p hp e => hb' (e ▸ Dict.mem_keys_of_mem hp)
    have hself : d'.filter (fun p => p.1 ≠ N.bound) = d' := by
      rw [List.filter_eq_self]; intro p hp; simpa using hne p hp
    have bnd : ∀ s, s = N.low ∨ s = N.up → ∃ t, I.restrict st [(N.bound, s)] = .ok t ∧
        I.valuesList t = .ok ((assignmentSpace d').map fun o => I.sem st (upd (asg o) N.bound s)) := by
      intro s hs
      have hok : ObsOk (I.dom st) [(N.bound, s)] := by
        rw [g3]
        intro p hp s' hs'
        rcases List.mem_cons.1 hp with rfl | hp
        · simp [Dict.get?] at hs'; subst hs'; rcases hs with rfl | rfl <;> simp
        · simp [Dict.get?, Ne.symm (hne p hp)] at hs'
      obtain ⟨t, t1, t2, t3, t4⟩ := hI.restrict_ok g2 hok
      have t3' : I.dom t = d' := by
        rw [t3, g3]
        rw [List.filter_cons_of_neg (by simp [Dict.keys])]
        refine Eq.trans (List.filter_congr fun p hp => ?_) hself
        simp [Dict.keys]
      refine ⟨t, t1, ?_⟩
      rw [StoreImpl.valuesList, t3']
      refine mapM_ok fun o hoo => ?_
      have hfo := mem_assignmentSpace_fullObs hd'.keys hoo
      have h1 : InDom (I.dom t) (asg o) := by rw [t3']; exact hfo.inDom
      rw [hI.getValue_ok t2 h1 (by rw [t3']; exact hfo.covers), t4 _ h1, over_cons_of_not_mem (by simp [Dict.keys])]
      rfl
    obtain ⟨lo, l1, l2⟩ := bnd N.low (.inl rfl)
    obtain ⟨hi, u1, u2⟩ := bnd N.up (.inr rfl)
    have hlen : (assignmentSpace d').length = (cards d').prod := by
      simp [assignmentSpace, stateSpace, length_product, cards, Function.comp_def]
    obtain ⟨r', h1, h2, h3, _, h5⟩ := IFactor.make_ok hI N (d := d') (left := (Dict.keys (I.dom st)).filter fun v => v ∈ r.leftVars N)
      (lows := (assignmentSpace d').map fun o => I.sem st (upd (asg o) N.bound N.low))
      (ups := (assignmentSpace d').map fun o => I.sem st (upd (asg o) N.bound N.up))
      hd' hb' (by simpa using hlen) (by simpa using hlen)
    refine ⟨r', ?_, h2, h3, fun a ha hab => ?_⟩
    · rw [IFactor.restrict, if_neg hno, g1]
      simp only [py_ok_bind]
      rw [l1]
      simp only [py_ok_bind]
      rw [l2]
      simp only [py_ok_bind]
      rw [u1]
      simp only [py_ok_bind]
      rw [u2]
      simp only [py_ok_bind]
      rw [← h1]
      congr 1
      rw [g3, List.filter_cons_of_neg (by simp)]
      exact hself
    · have hget := assignmentSpace_getElem? ha
      have key : ∀ s, a N.bound = s → (s = N.low ∨ s = N.up) →
          I.sem st (upd (asg (d'.map fun p => (p.1, a p.1))) N.bound s) = I.sem r.store (over obs a) := by
        intro s hs hs'
        have hag : ∀ v ∈ Dict.keys (I.dom st), upd (asg (d'.map fun p => (p.1, a p.1))) N.bound s v = a v := by
          intro v hv
          rw [g3, Dict.keys_cons] at hv
          by_cases hvb : v = N.bound
          · subst hvb; simp [hs]
          · rw [upd_ne _ _ hvb]
            rcases List.mem_cons.1 hv with hv | hv
            · exact absurd hv hvb
            · rw [asg, over_of_get? (covers_map d' a (e := d') (fun v hv => hv) v hv)]
        have hin : InDom (I.dom st) a := by
          rw [g3]
          intro p hp
          rcases List.mem_cons.1 hp with rfl | hp
          · rcases hs' with h | h <;> simp [hs, h]
          · exact ha p hp
        rw [hI.sem_congr g2 hag, g4 a hin]
      rcases hab with hl | hl
      · rw [(h5 a ha).1 hl, List.getD_eq_getElem?_getD, List.getElem?_map, hget]
        exact key N.low hl (.inl rfl)
      · rw [(h5 a ha).2 hl, List.getD_eq_getElem?_getD, List.getElem?_map, hget]
        exact key N.up hl (.inr rfl)

/-- **C50** restricting an interval factor keeps the bounds at the states that remain. -/
theorem C50_restrict (vt wt : VType) {fs : List (Factor (storeOf vt : StoreImpl V S (Fl K)))} {f : Factor (storeOf vt)}
    (hwf : ∀ g ∈ f :: fs, g.WF) (hdom : ∀ g ∈ f :: fs, dictEq f.dom g.dom) (hfin : ∀ g ∈ f :: fs, AllFinite g)
    (hb : N.bound ∉ f.vars) {obs : Obs V S} (ho : ObsOk f.dom obs) (hob : N.bound ∉ Dict.keys obs) :
    ∃ r r', IFactor.fromPrecise N (storeOf wt) (f :: fs) = .ok r ∧ r.restrict N obs = .ok r' ∧
      r'.dom N = f.dom.filter (fun p => p.1 ∉ Dict.keys obs) ∧
      ∀ o, FullObs (f.dom.filter fun p => p.1 ∉ Dict.keys obs) o → ∀ s, s = N.low ∨ s = N.up →
        ∃ x, r'.getValue ((N.bound, s) :: o) = .ok x ∧ r.getValue ((N.bound, s) :: (obs ++ o)) = .ok x := by
  have hI := storeOf_lawful (V := V) (S := S) (α := Fl K) wt
  have hJ := storeOf_lawful (V := V) (S := S) (α := Fl K) vt
  have hd := (hwf f List.mem_cons_self).domOk hJ
  obtain ⟨r, h1, h2, h3, h4, h5⟩ := fromPrecise_sem N hI hJ hwf hdom hfin hb
  obtain ⟨r', g1, g2, g3, g4⟩ := irestrict_ok N hI h2 hd hb h3 ho hob
  have hb' : N.bound ∉ Dict.keys (f.dom.filter fun p => p.1 ∉ Dict.keys obs) := by
    rw [Dict.keys_filter_key f.dom (fun v => v ∉ Dict.keys obs)]
    exact fun h => hb (List.mem_filter.1 h).1
  refine ⟨r, r', h1, g1, ?_, fun o hoo s hs => ?_⟩
  · rw [IFactor.dom, g3, List.filter_cons_of_neg (by simp), List.filter_eq_self]
    intro p hp
    have : p.1 ≠ N.bound := fun e => hb' (e ▸ Dict.mem_keys_of_mem hp)
    simpa using this
  · have hfo : FullObs f.dom (obs ++ o) := FullObs.append ho hoo
    refine ⟨_, iget_ok N hI g2 hb' g3 hoo hs, ?_⟩
    rw [iget_ok N hI h2 hb h3 hfo hs, g4]
    · congr 2
      rw [asg_append]
      funext v
      by_cases hv : v = N.bound
      · subst hv; rw [over_of_not_mem hob]; simp
      · rw [upd_ne _ _ hv]
        simp only [over, upd_ne _ _ hv]
    · intro p hp
      have : p.1 ≠ N.bound := fun e => hb' (e ▸ Dict.mem_keys_of_mem hp)
      rw [upd_ne _ _ this]; exact hoo.inDom p hp
    · rcases hs with rfl | rfl <;> simp

/-- **C50** the pair returned for a probability of causation: the answers of the models are turned into an interval
factor, which is then read at one joint state. -/
theorem C50_pair (vt wt : VType) {fs : List (Factor (storeOf vt : StoreImpl V S (Fl K)))} {f : Factor (storeOf vt)}
    (hwf : ∀ g ∈ f :: fs, g.WF) (hdom : ∀ g ∈ f :: fs, dictEq f.dom g.dom) (hfin : ∀ g ∈ f :: fs, AllFinite g)
    (hb : N.bound ∉ f.vars) {o : Obs V S} (ho : FullObs f.dom o) (hob : N.bound ∉ Dict.keys o) :
    ∃ lo hi xs, FiniteAt (f :: fs) xs o ∧ TightBounds lo hi xs ∧
      (do let r ← processOutput (I := storeOf wt) N true (.factors (f :: fs)) none
          processOutput N true r (some o)) = .ok (.numbers [.fin lo, .fin hi]) ∧
      processOutput (I := storeOf wt) N true (.factors (f :: fs)) (some o) = .ok (.numbers [.fin lo, .fin hi]) := by
  have hI := storeOf_lawful (V := V) (S := S) (α := Fl K) wt
  have hJ := storeOf_lawful (V := V) (S := S) (α := Fl K) vt
  have hd := (hwf f List.mem_cons_self).domOk hJ
  obtain ⟨r, h1, _, _, h5⟩ := C50_envelope N vt wt hwf hdom hfin hb
  obtain ⟨r0, h1', h2, h3, _, _⟩ := fromPrecise_sem N hI hJ hwf hdom hfin hb
  rw [h1] at h1'
  obtain rfl := Except.ok.inj h1'
  have hok : ObsOk f.dom o := by
    intro p hp s hs
    obtain ⟨s', hs', hg⟩ := ho p hp
    rw [hs] at hg; exact (Option.some.inj hg) ▸ hs'
  obtain ⟨r', g1, g2, g3, g4⟩ := irestrict_ok N hI h2 hd hb h3 hok hob
  have hnil : f.dom.filter (fun p => p.1 ∉ Dict.keys o) = [] := by
    rw [List.filter_eq_nil_iff]
    intro p hp
    obtain ⟨s, _, hg⟩ := ho p hp
    simpa using Dict.mem_keys_of_mem (Dict.mem_of_get? hg)
  rw [hnil] at g3 g4
  obtain ⟨lo, hi, xs, x1, x2, x3, x4⟩ := h5 o ho
  have hmm := x2.2.2 lo x2.1
  refine ⟨lo, hi, xs, x1, x2, ?_, ?_⟩
  · have hvals : r'.values = .ok [.fin lo, .fin hi] := by
      have hsp : assignmentSpace [(N.bound, [N.low, N.up])] = [[(N.bound, N.low)], [(N.bound, N.up)]] := rfl
      rw [IFactor.values, StoreImpl.valuesList, g3, hsp]
      have look : ∀ s, s = N.low ∨ s = N.up → (storeOf wt).getValue r'.store [(N.bound, s)]
          = r.getValue ((N.bound, s) :: o) := by
        intro s hs
        have := iget_ok N hI g2 (d := []) (by simp [Dict.keys]) g3 (o := []) (by intro p hp; simp at hp) hs
        rw [IFactor.getValue] at this
        rw [this, iget_ok N hI h2 hb h3 ho hs, g4 _ (by intro p hp; simp at hp) (by rcases hs with rfl | rfl <;> simp)]
        congr 1
        refine hI.sem_congr h2 fun v hv => ?_
        rw [h3, Dict.keys_cons] at hv
        by_cases hvb : v = N.bound
        · subst hvb; rw [over_of_not_mem hob]; simp
        · rcases List.mem_cons.1 hv with hv | hv
          · exact absurd hv hvb
          · rw [over_of_get? (ho.covers v hv), upd_ne _ _ hvb]
      rw [List.mapM_cons, List.mapM_cons, List.mapM_nil, look _ (.inl rfl), look _ (.inr rfl), x3, x4]
      rfl
    have e1 : processOutput (I := storeOf wt) N true (.factors (f :: fs)) none = .ok (.interval r) := by
      simp [processOutput, h1]
    have e2 : processOutput (I := storeOf wt) (J := storeOf vt) N true (.interval r) (some o)
        = .ok (.numbers [.fin lo, .fin hi]) := by
      obtain ⟨lo', hi', m1, m2, m3⟩ := C50_scalars (x := lo) (xs := [hi])
      have el : lo' = lo := by
        refine le_antisymm (m3.2.2 lo List.mem_cons_self).1 ?_
        rcases List.mem_cons.1 m3.1 with h | h
        · exact h.ge
        · rw [List.mem_singleton.1 h]; exact hmm.2
      have eh : hi' = hi := by
        refine le_antisymm ?_ (m3.2.2 hi (by simp)).2
        rcases List.mem_cons.1 m3.2.1 with h | h
        · rw [h]; exact hmm.2
        · exact (List.mem_singleton.1 h).le
      rw [el] at m1
      rw [eh] at m2
      simp only [List.map_cons, List.map_nil] at m1 m2
      simp only [processOutput, g1, hvals, py_ok_bind, m1, m2, pure, Except.pure, if_true]
    rw [e1]
    simp only [py_ok_bind]
    exact e2
  · obtain ⟨y, ys, rfl⟩ : ∃ y ys, xs = y :: ys := by
      cases xs with
      | nil => simp [FiniteAt] at x1
      | cons y ys => exact ⟨y, ys, rfl⟩
    have hm : (f :: fs).mapM (fun g => g.getValue o) = .ok ((y :: ys).map Fl.fin) := by
      have : ∀ (gs : List (Factor (storeOf vt : StoreImpl V S (Fl K)))) (zs : List K), FiniteAt gs zs o →
          gs.mapM (fun g => g.getValue o) = .ok (zs.map Fl.fin) := by
        intro gs
        induction gs with
        | nil => intro zs h; cases zs with
          | nil => rfl
          | cons z zs => simp [FiniteAt] at h
        | cons g gs ih =>
          intro zs h
          cases zs with
          | nil => simp [FiniteAt] at h
          | cons z zs =>
            simp only [FiniteAt, List.map_cons, List.cons.injEq] at h
            rw [List.mapM_cons, h.1, ih zs h.2]; rfl
      exact this _ _ x1
    obtain ⟨lo', hi', m1, m2, m3⟩ := C50_scalars (x := y) (xs := ys)
    have el : lo' = lo := le_antisymm (m3.2.2 lo x2.1).1 (x2.2.2 lo' m3.1).1
    have eh : hi' = hi := le_antisymm (x2.2.2 hi' m3.2.1).2 (m3.2.2 hi x2.2.1).2
    subst el eh
    simp only [processOutput, hm, py_ok_bind, m1, m2, pure, Except.pure, if_true]

/-- **C50** factors with different domains are refused. -/
theorem C50_refused {f : Factor J} {fs : List (Factor J)} (h : ∃ g ∈ fs, ¬ dictEq f.dom g.dom) :
    IFactor.fromPrecise N I (f :: fs) = .error .valueError := by
  obtain ⟨g, hg, hn⟩ := h
  rw [IFactor.fromPrecise, if_pos]
  · rfl
  · exact fun h => hn (h g (List.mem_cons_of_mem _ hg))

end

/-! ### Example -/

/-- names used in the example -/
def bndEx : BoundNames Char Char := ⟨'_', 'l', 'u', by decide⟩

/-- Two tables `P(A)`, their interval and its restriction to `A = 'b'`. -/
def intervalEx (vt : VType) : Py (List (Fl ℚ) × List (Fl ℚ)) := do
  let f ← Factor.make (IQ vt) [('A', ['a', 'b', 'c'])] [.fin (1 / 2), .fin (1 / 4), .fin (1 / 4)] none none
  let g ← Factor.make (IQ vt) [('A', ['a', 'b', 'c'])] [.fin (1 / 3), .fin (1 / 2), .fin (1 / 6)] none none
  let r ← IFactor.fromPrecise bndEx (IQ .numpy) [f, g]
  let s ← r.restrict bndEx [('A', 'b')]
  let x ← r.values
  let y ← s.values
  return (x, y)

theorem C50_example (vt : VType) : intervalEx vt = .ok
    ([.fin (1 / 3), .fin (1 / 4), .fin (1 / 6), .fin (1 / 2), .fin (1 / 2), .fin (1 / 4)], [.fin (1 / 4), .fin (1 / 2)]) := by
  cases vt <;> decide +kernel

/-- A `nan` among the values makes both bounds `nan` in a table, but python's `min` and `max`, used for numbers,
depend on its position. -/
theorem C50_nan : Fl.npMin [Fl.fin (1 : ℚ), .nan, .fin 0] = .ok .nan ∧ Fl.pyMin [Fl.fin (1 : ℚ), .nan, .fin 0] = .ok (.fin 0) ∧
    Fl.pyMin [.nan, Fl.fin (1 : ℚ), .fin 0] = .ok .nan := by decide +kernel

end Verif.Props
