import Verif.Model.MixedLemmas
import Verif.Learn.EMLemmas

/-!
# Queries to a model whose factors are kept in different stores: helper lemmas
-/

set_option linter.unusedSectionVars false
set_option linter.unusedSimpArgs false

namespace Verif
open Relation

/-! ### The nodes that a query keeps -/

namespace DiGraph
variable {V : Type}

/-- Specification: two neighbours, both with a descendant that is asked for or observed, whose edge does not leave an observed node -/
def Link (g : DiGraph V) (T E : List V) (u w : V) : Prop :=
  g.Needed (T ++ E) u ∧ g.Needed (T ++ E) w ∧ ((u, w) ∈ g.edges ∧ u ∉ E ∨ (w, u) ∈ g.edges ∧ w ∉ E)

/-- Specification: what matters for a query about `T` when `E` is observed -/
def Relevant (g : DiGraph V) (T E : List V) (v : V) : Prop := g.Needed (T ++ E) v ∧ ∃ t ∈ T, ReflTransGen (g.Link T E) t v

variable [DecidableEq V]

theorem not_mem_irrelevant {g : DiGraph V} (hg : g.WF) (ha : g.Acyclic) {T E : List V} (hT : ∀ t ∈ T, t ∈ g.nodes) {v : V} (hv : v ∈ g.nodes) :
    v ∉ irrelevant g T E ↔ g.Relevant T E v := by
  set barren := g.barrenNodes (T ++ E) with hb
  set h := (g.removeOutgoing E).removeNodes barren with hh
  have hwf : h.WF := (hg.removeOutgoing E).removeNodes _
  have mb : ∀ v, v ∈ barren ↔ v ∈ g.nodes ∧ ¬ g.Needed (T ++ E) v := fun v => DiGraph.mem_barrenNodes hg ha
  have mb' : ∀ v ∈ g.nodes, v ∉ barren ↔ g.Needed (T ++ E) v := by
    intro v hv; rw [mb]; tauto
  have mhn : ∀ v, v ∈ h.nodes ↔ v ∈ g.nodes ∧ v ∉ barren := by
    intro v; simp [hh, DiGraph.removeNodes, DiGraph.removeOutgoing]
  have mhe : ∀ u v, (u, v) ∈ h.edges ↔ (u, v) ∈ g.edges ∧ u ∉ E ∧ u ∉ barren ∧ v ∉ barren := by
    intro u v; simp [hh, DiGraph.removeNodes, DiGraph.removeOutgoing, and_assoc]; tauto
  have hTh : ∀ t ∈ T, t ∈ h.nodes := by
    intro t ht
    refine (mhn t).2 ⟨hT t ht, fun hc => ((mb t).1 hc).2 ⟨t, List.mem_append_left _ ht, .refl⟩⟩
  have hlink : ∀ u w, h.UEdge u w ↔ g.Link T E u w := by
    intro u w
    rw [UEdge, mhe, mhe, Link]
    constructor
    · rintro (⟨h1, h2, h3, h4⟩ | ⟨h1, h2, h3, h4⟩)
      · obtain ⟨n1, n2⟩ := hg.ends _ h1
        exact ⟨(mb' _ n1).1 h3, (mb' _ n2).1 h4, .inl ⟨h1, h2⟩⟩
      · obtain ⟨n1, n2⟩ := hg.ends _ h1
        exact ⟨(mb' _ n2).1 h4, (mb' _ n1).1 h3, .inr ⟨h1, h2⟩⟩
    · rintro ⟨a1, a2, ⟨h1, h2⟩ | ⟨h1, h2⟩⟩
      · obtain ⟨n1, n2⟩ := hg.ends _ h1
        exact .inl ⟨h1, h2, (mb' _ n1).2 a1, (mb' _ n2).2 a2⟩
      · obtain ⟨n1, n2⟩ := hg.ends _ h1
        exact .inr ⟨h1, h2, (mb' _ n1).2 a2, (mb' _ n2).2 a1⟩
  have hU : h.UEdge = g.Link T E := by funext u w; exact propext (hlink u w)
  have hirr : v ∈ irrelevant g T E ↔ (v ∈ barren ∨ v ∈ h.disconnectedNodes T) ∧ v ∉ T := by
    simp [irrelevant, ← hb, ← hh]; tauto
  rw [hirr, DiGraph.disconnectedNodes, Relevant, ← hU, ← mb' v hv]
  simp only [List.mem_filter, Bool.not_eq_eq_eq_not, Bool.not_true, mhn]
  have hc := DiGraph.connected_iff hwf hTh (y := v)
  by_cases hvT : v ∈ T
  · have h1 := ((mhn v).1 (hTh v hvT)).2
    have h2 : ∃ t ∈ T, ReflTransGen h.UEdge t v := ⟨v, hvT, .refl⟩
    simp [hvT, h1, h2]
  · by_cases hvb : v ∈ barren
    · simp [hvb, hvT]
    · simp only [hvb, hvT, hv, false_or, not_false_eq_true, and_true, true_and]
      rw [← hc]; simp

theorem Relevant.child {g : DiGraph V} {T E : List V} {v : V} (h : g.Relevant T E v) (hT : v ∉ T) (hE : v ∉ E) :
    ∃ c, g.Edge v c ∧ g.Relevant T E c := by
  obtain ⟨⟨s, hs, hr⟩, t, ht, hl⟩ := h
  rcases ReflTransGen.cases_head hr with rfl | ⟨c, h1, h2⟩
  · rcases List.mem_append.1 hs with hs | hs
    · exact absurd hs hT
    · exact absurd hs hE
  · have hc : g.Needed (T ++ E) c := ⟨s, hs, h2⟩
    exact ⟨c, h1, hc, t, ht, hl.tail ⟨⟨s, hs, hr⟩, hc, .inl ⟨h1, hE⟩⟩⟩

theorem Relevant.parent {g : DiGraph V} {T E : List V} {v p : V} (h : g.Relevant T E v) (hp : g.Edge p v) (hE : p ∉ E) :
    g.Relevant T E p := by
  obtain ⟨⟨s, hs, hr⟩, t, ht, hl⟩ := h
  have hc : g.Needed (T ++ E) p := ⟨s, hs, hr.head hp⟩
  exact ⟨hc, t, ht, hl.tail ⟨⟨s, hs, hr⟩, hc, .inr ⟨hp, hE⟩⟩⟩

theorem Relevant.target {g : DiGraph V} {T E : List V} {t : V} (h : t ∈ T) : g.Relevant T E t :=
  ⟨⟨t, List.mem_append_left _ h, .refl⟩, t, h, .refl⟩

end DiGraph

variable {V S K : Type} [DecidableEq V] [DecidableEq S] [Nonempty S] [Field K] [LinearOrder K]

/-! ### Operations that succeed -/

namespace VFactor
variable {D : V → List S}

/-- A well formed factor over the states `D`, with finite cells -/
def Good (D : V → List S) (f : VFactor V S K) : Prop := ∃ φ, Factor.Rep D f.fac φ

theorem multiply_ok {f g r : VFactor V S K} (hf : f.Good D) (hg : g.Good D) (h : f.multiply g = .ok r) :
    f.vtype = r.vtype ∧ g.vtype = r.vtype ∧ r.Good D ∧ (∀ v, v ∈ r.vars ↔ v ∈ f.vars ∨ v ∈ g.vars) ∧
      ∀ v, v ∈ r.leftVars ↔ v ∈ f.leftVars ∨ v ∈ g.leftVars := by
  obtain ⟨vt, f', g', r', rfl, rfl, rfl, ho⟩ := binary_ok h
  obtain ⟨φ, hφ⟩ := hf
  obtain ⟨ψ, hψ⟩ := hg
  obtain ⟨q, q1, q2, q3, q4⟩ := Factor.Rep.mul (storeOf_lawful (V := V) (S := S) (α := Fl K) vt) hφ hψ
  have e : Except.ok q = Except.ok r' := q1.symm.trans ho
  injection e with e
  subst e
  exact ⟨rfl, rfl, ⟨_, q2⟩, q3, q4⟩

theorem combineAll_ok {l : List (VFactor V S K)} (hl : ∀ f ∈ l, f.Good D) {j : VFactor V S K} (h : combineAll l = .ok j) :
    j.Good D ∧ (∀ f ∈ l, f.vtype = j.vtype) ∧ (∀ v, v ∈ j.vars ↔ ∃ f ∈ l, v ∈ f.vars) ∧ ∀ v, v ∈ j.leftVars ↔ ∃ f ∈ l, v ∈ f.leftVars := by
  cases l with
  | nil => cases h
  | cons f l =>
    have key : ∀ (l : List (VFactor V S K)) (f : VFactor V S K), f.Good D → (∀ g ∈ l, g.Good D) → l.foldlM multiply f = .ok j →
        j.Good D ∧ (f.vtype = j.vtype ∧ ∀ g ∈ l, g.vtype = j.vtype) ∧ (∀ v, v ∈ j.vars ↔ v ∈ f.vars ∨ ∃ g ∈ l, v ∈ g.vars) ∧
          ∀ v, v ∈ j.leftVars ↔ v ∈ f.leftVars ∨ ∃ g ∈ l, v ∈ g.leftVars := by
      intro l
      induction l with
      | nil =>
        intro f hf _ h
        injection h with h
        subst h
        exact ⟨hf, ⟨rfl, by simp⟩, by simp, by simp⟩
      | cons c l ih =>
        intro f hf hl h
        rw [List.foldlM_cons] at h
        cases hm : f.multiply c with
        | error e => rw [hm] at h; cases h
        | ok r =>
          rw [hm, py_ok_bind] at h
          obtain ⟨m1, m2, m3, m4, m5⟩ := multiply_ok hf (hl c List.mem_cons_self) hm
          obtain ⟨i1, ⟨i2, i3⟩, i4, i5⟩ := ih r m3 (fun g hg => hl g (List.mem_cons_of_mem _ hg)) h
          refine ⟨i1, ⟨m1.trans i2, fun g hg => ?_⟩, fun v => by rw [i4, m4]; simp [or_assoc], fun v => by rw [i5, m5]; simp [or_assoc]⟩
          rcases List.mem_cons.1 hg with rfl | hg
          · exact m2.trans i2
          · exact i3 g hg
    obtain ⟨i1, ⟨i2, i3⟩, i4, i5⟩ := key l f (hl f List.mem_cons_self) (fun g hg => hl g (List.mem_cons_of_mem _ hg)) h
    refine ⟨i1, fun g hg => ?_, fun v => by rw [i4]; simp, fun v => by rw [i5]; simp⟩
    rcases List.mem_cons.1 hg with rfl | hg
    · exact i2
    · exact i3 g hg

theorem marginalize_ok {f r : VFactor V S K} (hf : f.Good D) {x : V} (hx : x ∈ f.vars) (h : f.marginalize [x] = .ok r) :
    r.vtype = f.vtype ∧ r.Good D ∧ (∀ v, v ∈ r.vars ↔ v ∈ f.vars ∧ v ≠ x) ∧ ∀ v, v ∈ r.leftVars ↔ v ∈ f.leftVars ∧ v ≠ x := by
  obtain ⟨vt, f⟩ := f
  obtain ⟨φ, hφ⟩ := hf
  obtain ⟨q, q1, q2, _, q3, q4⟩ := Factor.Rep.marginalize (storeOf_lawful (V := V) (S := S) (α := Fl K) vt) hφ (xs := [x])
    (fun y hy => by rw [List.mem_singleton.1 hy]; exact hx) (by simp)
  have h' := (marginalize_same f [x]).symm.trans h
  rw [show f.marginalize [x] = .ok q from q1] at h'
  injection h' with h'
  subst h'
  exact ⟨rfl, ⟨_, q2⟩, fun v => (q3 v).trans (by rw [List.mem_singleton]; rfl), fun v => (q4 v).trans (by rw [List.mem_singleton]; rfl)⟩

theorem restrict_vtype {f r : VFactor V S K} {obs : Obs V S} (h : f.restrict obs = .ok r) : r.vtype = f.vtype := by
  rw [restrict] at h
  cases hf : f.fac.restrict obs with
  | error e => rw [hf] at h; cases h
  | ok q => rw [hf] at h; injection h with h; rw [← h]

end VFactor

/-! ### Elimination -/

/-- During elimination, every relevant node has a factor of the store in which its table is kept -/
structure Homes (g : DiGraph V) (T E : List V) (D : V → List S) (ty : V → VType) (done : List V) (fs : List (VFactor V S K)) : Prop where
  good : ∀ f ∈ fs, f.Good D
  home : ∀ u, g.Relevant T E u → ∃ f ∈ fs, f.vtype = ty u ∧ (∀ y, (y = u ∨ g.Edge y u ∧ y ∉ E) → y ∉ done → y ∈ f.vars) ∧
    ∃ e, ReflTransGen g.Edge u e ∧ e ∈ f.leftVars

theorem Homes.step {g : DiGraph V} (ha : g.Acyclic) {T E : List V} {D : V → List S} {ty : V → VType} {done : List V} {fs fs' : List (VFactor V S K)}
    (h : Homes g T E D ty done fs) {x : V} (hxd : x ∉ done) (hx : g.Relevant T E x) (hxT : x ∉ T) (hxE : x ∉ E) (hs : Mixed.elimStep fs x = .ok fs') :
    Homes g T E D ty (done ++ [x]) fs' := by
  rw [Mixed.elimStep] at hs
  simp only at hs
  cases hj : VFactor.combineAll (fs.filter fun f => x ∈ f.vars) with
  | error e => rw [hj] at hs; cases hs
  | ok j =>
    rw [hj, py_ok_bind] at hs
    cases hm : j.marginalize [x] with
    | error e => rw [hm] at hs; cases hs
    | ok r =>
      rw [hm, py_ok_bind] at hs
      injection hs with hs
      have mrel : ∀ f, f ∈ (fs.filter fun f => x ∈ f.vars) ↔ f ∈ fs ∧ x ∈ f.vars := fun f => by simp
      obtain ⟨j1, j2, j3, j4⟩ := VFactor.combineAll_ok (D := D) (fun f hf => h.good f ((mrel f).1 hf).1) hj
      obtain ⟨c, hxc, hc⟩ := hx.child hxT hxE
      obtain ⟨fc, c1, c2, c3, ec, c4, c5⟩ := h.home c hc
      have hxfc : x ∈ fc.vars := c3 x (.inr ⟨hxc, hxE⟩) hxd
      have hne : ec ≠ x := by
        rintro rfl
        exact ha ec (.head' hxc c4)
      obtain ⟨r1, r2, r3, r4⟩ := VFactor.marginalize_ok j1 ((j3 x).2 ⟨fc, (mrel fc).2 ⟨c1, hxfc⟩, hxfc⟩) hm
      have hec : ec ∈ r.leftVars := (r4 ec).2 ⟨(j4 ec).2 ⟨fc, (mrel fc).2 ⟨c1, hxfc⟩, c5⟩, hne⟩
      rw [if_pos (List.length_pos_of_mem hec)] at hs
      subst hs
      constructor
      · intro f hf
        rcases List.mem_append.1 hf with hf | hf
        · exact h.good f (List.mem_filter.1 hf).1
        · rw [List.mem_singleton.1 hf]; exact r2
      · intro u hu
        obtain ⟨fu, u1, u2, u3, eu, u4, u5⟩ := h.home u hu
        by_cases hxu : x ∈ fu.vars
        · refine ⟨r, by simp, ?_, fun y hy hyd => ?_, ?_⟩
          · rw [r1, ← j2 fu ((mrel fu).2 ⟨u1, hxu⟩), u2]
          · simp only [List.mem_append, List.mem_singleton, not_or] at hyd
            exact (r3 y).2 ⟨(j3 y).2 ⟨fu, (mrel fu).2 ⟨u1, hxu⟩, u3 y hy hyd.1⟩, hyd.2⟩
          · by_cases he : eu = x
            · subst he
              exact ⟨ec, u4.trans (c4.head hxc), hec⟩
            · exact ⟨eu, u4, (r4 eu).2 ⟨(j4 eu).2 ⟨fu, (mrel fu).2 ⟨u1, hxu⟩, u5⟩, he⟩⟩
        · refine ⟨fu, by simp [u1, hxu], u2, fun y hy hyd => ?_, eu, u4, u5⟩
          simp only [List.mem_append, List.mem_singleton, not_or] at hyd
          exact u3 y hy hyd.1

theorem Homes.run {g : DiGraph V} (ha : g.Acyclic) {T E : List V} {D : V → List S} {ty : V → VType} (order : List V) {done : List V} {fs fs' : List (VFactor V S K)}
    (h : Homes g T E D ty done fs) (hn : (done ++ order).Nodup) (ho : ∀ x ∈ order, g.Relevant T E x ∧ x ∉ T ∧ x ∉ E)
    (hs : order.foldlM Mixed.elimStep fs = .ok fs') : Homes g T E D ty (done ++ order) fs' := by
  induction order generalizing done fs with
  | nil => injection hs with hs; subst hs; simpa using h
  | cons x order ih =>
    rw [List.foldlM_cons] at hs
    cases hx : Mixed.elimStep fs x with
    | error e => rw [hx] at hs; cases hs
    | ok gs =>
      rw [hx, py_ok_bind] at hs
      obtain ⟨o1, o2, o3⟩ := ho x List.mem_cons_self
      have hxd : x ∉ done := by
        intro hc
        rw [List.nodup_append] at hn
        exact hn.2.2 x hc x List.mem_cons_self rfl
      have := ih (h.step ha hxd o1 o2 o3 hx) (by simpa using hn) (fun y hy => ho y (List.mem_cons_of_mem _ hy)) hs
      simpa using this

/-- The model `m` has the graph of `B`, and for each node its table, in whatever store. -/
structure MixedTables (m : DagModel (VFactor V S K) V S) (B : BN V S K) : Prop where
  wf : m.graph.WF
  nodes : m.graph.nodes = B.nodes
  parents : ∀ v ∈ B.nodes, ∀ p, p ∈ B.parents v ↔ (p, v) ∈ m.graph.edges
  keys : Dict.keys m.factors = m.graph.nodes
  table : ∀ v ∈ B.nodes, ∃ f, Dict.get? m.factors v = some (some f) ∧ IsTable B v f.fac

theorem MixedTables.acyclic {m : DagModel (VFactor V S K) V S} {B : BN V S K} (h : MixedTables m B) (hB : B.Valid) : m.graph.Acyclic := by
  intro v hv
  refine hB.acyclic v (Relation.TransGen.mono (fun u w huw => ?_) _ _ hv)
  have hw : w ∈ B.nodes := by rw [← h.nodes]; exact (h.wf.ends _ huw).2
  exact ⟨hw, (h.parents w hw u).2 huw⟩

set_option maxHeartbeats 1000000 in
theorem mixed_vtype {ch : Choices V} (hch : ch.Ok) {m : DagModel (VFactor V S K) V S} {B : BN V S K} (hm : MixedTables m B) (hB : B.Valid) (hn : B.Normalised)
    {T : List V} {ev : Obs V S} (hq : Props.GoodQuery B T ev) {r : VFactor V S K} (h : Mixed.query ch m T ev = .ok r) {v : V} {f : VFactor V S K}
    (hv : m.graph.Relevant T (Dict.keys ev) v) (hf : Dict.get? m.factors v = some (some f)) : f.vtype = r.vtype := by
  classical
  have ha := hm.acyclic hB
  set E := Dict.keys ev with hE
  have hTg : ∀ t ∈ T, t ∈ m.graph.nodes := fun t ht => hm.nodes ▸ hq.nodes t ht
  rw [Mixed.query, if_neg (not_not.2 hq.nodup), if_neg (not_not.2 hq.disjoint), if_neg (not_not.2 (by
    intro x hx
    rw [hm.nodes]
    rcases List.mem_append.1 hx with h | h
    · exact hq.nodes x h
    · exact hq.evidence.nodes x h))] at h
  set irr := irrelevant m.graph T E with hirr
  set C := m.graph.nodes.filter (· ∉ irr) with hC
  have mC : ∀ v, v ∈ C ↔ v ∈ m.graph.nodes ∧ m.graph.Relevant T E v := by
    intro v
    rw [hC, List.mem_filter]
    simp only [decide_eq_true_eq]
    constructor
    · rintro ⟨h1, h2⟩; exact ⟨h1, (DiGraph.not_mem_irrelevant hm.wf ha hTg h1).1 h2⟩
    · rintro ⟨h1, h2⟩; exact ⟨h1, (DiGraph.not_mem_irrelevant hm.wf ha hTg h1).2 h2⟩
  have hCB : ∀ v ∈ C, v ∈ B.nodes := fun v hv => hm.nodes ▸ ((mC v).1 hv).1
  have hrelB : ∀ v, m.graph.Relevant T E v → v ∈ C := by
    intro v hv
    refine (mC v).2 ⟨?_, hv⟩
    obtain ⟨⟨s, hs, hr⟩, _⟩ := hv
    rcases ReflTransGen.cases_head hr with rfl | ⟨c, h1, _⟩
    · rw [hm.nodes]
      rcases List.mem_append.1 hs with h | h
      · exact hq.nodes _ h
      · exact hq.evidence.nodes _ h
    · exact (hm.wf.ends _ h1).1
  -- the restricted factors
  have hfac : ∀ v, ∃ f r : VFactor V S K, v ∈ C → Dict.get? m.factors v = some (some f) ∧
      VFactor.restrict f (ev.filter fun q => q.1 ∈ VFactor.rightVars f) = .ok r ∧ r.vtype = f.vtype ∧ r.Good B.states ∧
      (∀ w, w ∈ r.vars ↔ w = v ∨ w ∈ B.parents v ∧ w ∉ E) ∧ (∀ w, w ∈ r.leftVars ↔ w = v) := by
    intro v
    by_cases hv : v ∈ C
    · obtain ⟨f, h1, h3⟩ := hm.table v (hCB v hv)
      obtain ⟨vt, g⟩ := f
      have hI := storeOf_lawful (V := V) (S := S) (α := Fl K) vt
      have hflt : (ev.filter fun q => q.1 ∈ VFactor.rightVars (⟨vt, g⟩ : VFactor V S K)) = ev.filter fun q => q.1 ∈ B.parents v := by
        refine List.filter_congr fun q _ => ?_
        simp only [VFactor.rightVars, h3.right]
      have hirrfl : v ∉ B.parents v := (hB.tables hn).irrefl (hCB v hv)
      obtain ⟨r, r1, r2, r3, r4⟩ := (h3.rep hI hB (hCB v hv)).restrict hI
        (obs := ev.filter fun q => q.1 ∈ B.parents v) (by
          intro w _ s hs
          rw [Dict.get?_filter_key ev (fun v' => v' ∈ B.parents v)] at hs
          split at hs
          · exact hq.evidence.states w s hs
          · cases hs)
      refine ⟨⟨vt, g⟩, inStore vt r, fun _ => ⟨h1, ?_, rfl, ⟨_, r2⟩, ?_, ?_⟩⟩
      · rw [hflt]
        refine (VFactor.restrict_same g _).trans ?_
        rw [r1]; rfl
      · intro w
        refine (r3 w).trans ?_
        rw [h3.vars, keys_evFilter]
        simp only [List.mem_filter, decide_eq_true_eq]
        constructor
        · rintro ⟨rfl | h, h'⟩
          · exact .inl rfl
          · exact .inr ⟨h, fun hc => h' ⟨hc, h⟩⟩
        · rintro (rfl | h)
          · exact ⟨.inl rfl, fun hc => hirrfl hc.2⟩
          · exact ⟨.inr h.1, fun hc => h.2 hc.1⟩
      · intro w
        refine (r4 w).trans ?_
        rw [h3.left, keys_evFilter]
        simp only [List.mem_filter, decide_eq_true_eq]
        constructor
        · exact fun h => h.1
        · rintro rfl; exact ⟨rfl, fun hc => hirrfl hc.2⟩
    · exact ⟨f, f, fun h => absurd h hv⟩
  choose Ff Fr hF using hfac
  have hnewF : ((m.factors.filter fun p => p.1 ∉ irr).mapM fun p =>
      match p.2 with
      | none => (.error .attributeError : Py (V × Option (VFactor V S K)))
      | some f => do
        let r ← VFactor.restrict f (ev.filter fun q => q.1 ∈ VFactor.rightVars f)
        return (p.1, some r)) =
      .ok (((m.factors.filter fun p => p.1 ∉ irr).map fun p => (p.1, Fr p.1)).map fun p => (p.1, some p.2)) := by
    rw [List.map_map]
    refine mapM_ok ?_
    rintro ⟨v, o⟩ hp
    obtain ⟨hp1, hp2⟩ := List.mem_filter.1 hp
    have hvC : v ∈ C := by
      rw [hC, List.mem_filter]
      exact ⟨by rw [← hm.keys]; exact Dict.mem_keys_of_mem hp1, hp2⟩
    obtain ⟨h1, h4, _⟩ := hF v hvC
    have hk : (Dict.keys m.factors).Nodup := by rw [hm.keys]; exact hm.wf.nodes
    rw [Dict.get?_of_mem hk hp1] at h1
    injection h1 with h1
    subst h1
    simp only [h4]
    rfl
  set newDag := (m.graph.removeOutgoing E).removeNodes irr with hnd
  have hndwf : newDag.WF := (hm.wf.removeOutgoing E).removeNodes _
  have hnda : newDag.Acyclic := ha.mono (by
    intro e he
    simp [hnd, DiGraph.removeNodes, DiGraph.removeOutgoing] at he
    exact he.1)
  have hndn : newDag.nodes = C := rfl
  have hkeys : Dict.keys ((m.factors.filter fun p => p.1 ∉ irr).map fun p => (p.1, Fr p.1)) = C := by
    have h1 := Dict.keys_filter_key m.factors (fun v => v ∉ irr)
    rw [hm.keys] at h1
    rw [← hC] at h1
    rw [← h1]
    simp [Dict.keys, List.map_map, Function.comp_def]
  have hmemF : ∀ p ∈ ((m.factors.filter fun p => p.1 ∉ irr).map fun p => (p.1, Fr p.1)), p.1 ∈ C ∧ p.2 = Fr p.1 := by
    intro p hp
    refine ⟨by rw [← hkeys]; exact Dict.mem_keys_of_mem hp, ?_⟩
    obtain ⟨q, _, rfl⟩ := List.mem_map.1 hp
    rfl
  obtain ⟨m', d1, d2, d3, d4, d5, d6⟩ := DagModel.ofDict_unchecked (S := S) hndwf hnda
    ((m.factors.filter fun p => p.1 ∉ irr).map fun p => (p.1, Fr p.1)) (by rw [hkeys, hndn]) (by
      intro p hp
      obtain ⟨h1, h2⟩ := hmemF p hp
      rw [h2]
      exact ((hF p.1 h1).2.2.2.2.1 p.1).2 (.inl rfl))
  have hmin : Mixed.minimalize m T ev = .ok m' := by
    rw [Mixed.minimalize]
    simp only [← hE, ← hirr, ← hnd]
    exact (congrArg (fun x => x >>= fun nf => DagModel.ofDict newDag nf false) hnewF).trans d1
  have hget : ∀ v ∈ C, Dict.get? m'.factors v = some (some (Fr v)) := by
    intro v hv
    rw [← hkeys] at hv
    obtain ⟨f, hf⟩ := Dict.mem_keys.1 hv
    have := d5 _ hf
    rw [(hmemF _ hf).2] at this
    exact this
  have hfs : m'.factors.mapM Mixed.slotFactor = .ok (C.map Fr) := by
    have : C.map Fr = m'.factors.map fun p => Fr p.1 := by
      rw [← hndn, ← d3, Dict.keys, List.map_map]; rfl
    rw [this]
    refine mapM_ok ?_
    rintro ⟨v, o⟩ hp
    have hv : v ∈ C := by rw [← hndn, ← d3]; exact Dict.mem_keys_of_mem hp
    have hk : (Dict.keys m'.factors).Nodup := by rw [d3]; exact hndwf.nodes
    have := hget v hv
    rw [Dict.get?_of_mem hk hp] at this
    injection this with this
    subst this
    rfl
  rw [hmin, py_ok_bind, Mixed.veRun, hfs, py_ok_bind] at h
  obtain ⟨t0, ht0⟩ := List.exists_mem_of_ne_nil _ hq.nonempty
  have ht0C : t0 ∈ C := hrelB t0 (DiGraph.Relevant.target ht0)
  have hne : ¬ (C.map Fr).isEmpty = true := by
    intro hc
    rw [List.isEmpty_iff, List.map_eq_nil_iff] at hc
    rw [hc] at ht0C; cases ht0C
  rw [if_neg hne] at h
  set rm := (ch.setOrd ((C.map Fr).flatMap VFactor.vars)).filter (fun v => v ∉ T ∧ v ∉ E) with hrm
  have mvars : ∀ v, v ∈ (C.map Fr).flatMap VFactor.vars → v ∈ C := by
    intro v hv
    obtain ⟨f, hf, hv⟩ := List.mem_flatMap.1 hv
    obtain ⟨u, hu, rfl⟩ := List.mem_map.1 hf
    rcases ((hF u hu).2.2.2.2.1 v).1 hv with rfl | ⟨h1, h2⟩
    · exact hu
    · exact hrelB v (((mC u).1 hu).2.parent ((hm.parents u (hCB u hu) v).1 h1) h2)
  have mrm : ∀ v ∈ rm, v ∈ C ∧ v ∉ T ∧ v ∉ E := by
    intro v hv
    rw [hrm, List.mem_filter, (hch.setOrd _).2] at hv
    exact ⟨mvars v hv.1, by simpa using hv.2⟩
  have rmnd : rm.Nodup := (hch.setOrd _).1.filter _
  have hdk : (Dict.keys m'.domains).Nodup := by rw [d4]; exact hndwf.nodes
  obtain ⟨sizes, s1, s2⟩ := DagModel.varsizes_ok hdk (fun v hv => d6 v (d4 ▸ hv))
  obtain ⟨order, o1, o2⟩ := hch.heur m'.graph rm sizes (d2 ▸ hndwf) (d2 ▸ hnda) rmnd
    (fun v hv => by rw [d2, hndn]; exact (mrm v hv).1)
    (fun v hv => by rw [s2, d4, List.mem_filter]; exact ⟨d2 ▸ hv, by simpa using hv⟩)
  have h0 : Homes m.graph T E B.states (fun u => (Ff u).vtype) [] (C.map Fr) := by
    constructor
    · intro f hf
      obtain ⟨u, hu, rfl⟩ := List.mem_map.1 hf
      exact (hF u hu).2.2.2.1
    · intro u hu
      obtain ⟨_, _, f3, _, f5, f6⟩ := hF u (hrelB u hu)
      refine ⟨Fr u, List.mem_map_of_mem (hrelB u hu), f3, fun y hy _ => (f5 y).2 ?_, u, .refl, (f6 u).2 rfl⟩
      rcases hy with h | ⟨h1, h2⟩
      · exact .inl h
      · exact .inr ⟨(hm.parents u (hCB u (hrelB u hu)) y).2 h1, h2⟩
  have h1 : (pure PUnit.unit >>= fun _ => do
      let sizes ← m'.varsizes
      let ordering ← ch.heur m'.graph rm sizes
      let fs ← ordering.foldlM Mixed.elimStep (C.map Fr)
      let joint ← VFactor.combineAll fs
      let joint ← joint.restrict ev
      let mg ← joint.marginalize T
      joint.divide mg : Py (VFactor V S K)) = .ok r := h
  rw [pure_bind, s1, py_ok_bind, o1, py_ok_bind] at h1
  cases e1 : order.foldlM Mixed.elimStep (C.map Fr) with
  | error e => rw [e1] at h1; cases h1
  | ok fs =>
    rw [e1, py_ok_bind] at h1
    have hh := h0.run ha order (by simpa using o2.nodup_iff.2 rmnd) (fun x hx => by
      obtain ⟨a1, a2⟩ := mrm x (o2.mem_iff.1 hx)
      exact ⟨((mC x).1 a1).2, a2⟩) e1
    cases e2 : VFactor.combineAll fs with
    | error e => rw [e2] at h1; cases h1
    | ok j =>
      rw [e2, py_ok_bind] at h1
      obtain ⟨_, j2, _⟩ := VFactor.combineAll_ok hh.good e2
      obtain ⟨fv, v1, v2, _⟩ := hh.home v hv
      have hfv : (Ff v).vtype = f.vtype := by
        have := (hF v (hrelB v hv)).1
        rw [hf] at this
        injection this with this
        injection this with this
        rw [this]
      cases e3 : j.restrict ev with
      | error e => rw [e3] at h1; cases h1
      | ok j' =>
        rw [e3, py_ok_bind] at h1
        cases e4 : j'.marginalize T with
        | error e => rw [e4] at h1; cases h1
        | ok mg =>
          rw [e4, py_ok_bind] at h1
          obtain ⟨vt, f', g', r', p1, _, p3, _⟩ := VFactor.binary_ok h1
          have : r.vtype = j'.vtype := by rw [p1, p3]; rfl
          rw [this, VFactor.restrict_vtype e3, ← j2 fv v1, v2, hfv]

/-! ### When the relevant factors are kept in one store -/

theorem Factor.restore {I J : StoreImpl V S (Fl K)} (hI : I.Lawful) (hJ : J.Lawful) {B : BN V S K} {v : V} {f : Factor I} (hf : IsTable B v f) :
    ∃ g : Factor J, IsTable B v g := by
  have hd := hf.wf.domOk hI
  obtain ⟨g, g1, g2, g3, g4, g5⟩ := Factor.make_ok hJ (d := f.dom) (values := (assignmentSpace f.dom).map fun o => f.sem (asg o)) (left := none)
    (right := some f.rightVars) (r := f.rightVars) hd (by simpa using Factor.values_length hI (f := f)) rfl
  have hv : g.vars = f.vars := by rw [Factor.vars, g3]; rfl
  refine ⟨g, g2, fun w => ?_, fun w => by rw [g4]; exact hf.right w, fun w => by rw [hv]; exact hf.vars w, by rw [g3]; exact hf.dom, fun obs ho => ?_⟩
  · rw [Factor.leftVars, hv, g4]; exact hf.left w
  · rw [g3] at ho
    have h1 := hf.value obs ho
    rw [Factor.getValue_full hI hf.wf ho] at h1
    rw [Factor.getValue_full hJ g2 (by rw [g3]; exact ho), g5 _ ho.inDom, List.getD_eq_getElem?_getD, List.getElem?_map, assignmentSpace_getElem? ho.inDom]
    rw [← h1]
    simp only [Option.map_some, Option.getD_some]
    congr 1
    refine Factor.WF.sem_congr hI hf.wf fun u hu => ?_
    exact over_of_get? (covers_map f.dom (asg obs) (e := f.dom) (fun v h => h) u hu)

theorem mixed_same {vt : VType} {ch : Choices V} {m : DagModel (VFactor V S K) V S} {b : DagModel (Factor (storeOf vt : StoreImpl V S (Fl K))) V S}
    {T : List V} {ev : Obs V S} (hg : m.graph = b.graph)
    (hf : (m.factors.filter fun p => p.1 ∉ irrelevant m.graph T (Dict.keys ev)) = (modelIn vt b).factors.filter fun p => p.1 ∉ irrelevant m.graph T (Dict.keys ev)) :
    Mixed.query ch m T ev = Mixed.query ch (modelIn vt b) T ev := by
  have : Mixed.minimalize m T ev = Mixed.minimalize (modelIn vt b) T ev := by
    rw [Mixed.minimalize, Mixed.minimalize]
    simp only [hf, show (modelIn vt b).graph = m.graph from hg.symm]
  rw [Mixed.query, Mixed.query, this, show (modelIn vt b).graph = m.graph from hg.symm]

theorem mixed_answers {ch : Choices V} (hch : ch.Ok) {m : DagModel (VFactor V S K) V S} {B : BN V S K} (hm : MixedTables m B) (hB : B.Valid) (hn : B.Normalised)
    {T : List V} {ev : Obs V S} (hq : Props.GoodQuery B T ev) (hp : B.marg (Dict.keys ev) (asg ev) ≠ 0) {vt : VType}
    (hvt : ∀ v f, m.graph.Relevant T (Dict.keys ev) v → Dict.get? m.factors v = some (some f) → f.vtype = vt) :
    ∃ r : Factor (storeOf vt : StoreImpl V S (Fl K)), Mixed.query ch m T ev = .ok (inStore vt r) ∧ Factor.Rep B.states r (B.post T ev) ∧
      (∀ v, v ∈ r.vars ↔ v ∈ T) ∧ ∀ v, v ∈ r.leftVars ↔ v ∈ T := by
  classical
  have ha := hm.acyclic hB
  have hTg : ∀ t ∈ T, t ∈ m.graph.nodes := fun t ht => hm.nodes ▸ hq.nodes t ht
  have hI := fun vt => storeOf_lawful (V := V) (S := S) (α := Fl K) vt
  have hk : (Dict.keys m.factors).Nodup := by rw [hm.keys]; exact hm.wf.nodes
  have hex : ∀ v, ∃ g : Factor (storeOf vt : StoreImpl V S (Fl K)), v ∈ B.nodes → IsTable B v g ∧
      ∀ f, Dict.get? m.factors v = some (some f) → f.vtype = vt → f = inStore vt g := by
    have some_g : ∀ v ∈ B.nodes, ∃ g : Factor (storeOf vt : StoreImpl V S (Fl K)), IsTable B v g := by
      intro v hv
      obtain ⟨f, _, h⟩ := hm.table v hv
      exact Factor.restore (hI _) (hI vt) h
    intro v
    by_cases hv : v ∈ B.nodes
    · obtain ⟨f, h1, h2⟩ := hm.table v hv
      by_cases e : f.vtype = vt
      · subst e
        exact ⟨f.fac, fun _ => ⟨h2, fun f' h' _ => by rw [h1] at h'; injection h' with h'; injection h' with h'; rw [← h']; rfl⟩⟩
      · obtain ⟨g, hg⟩ := some_g v hv
        exact ⟨g, fun _ => ⟨hg, fun f' h' e' => by rw [h1] at h'; injection h' with h'; injection h' with h'; rw [← h'] at e'; exact absurd e' e⟩⟩
    · obtain ⟨t, ht⟩ := List.exists_mem_of_ne_nil _ hq.nonempty
      obtain ⟨g, _⟩ := some_g t (hq.nodes t ht)
      exact ⟨g, fun h => absurd h hv⟩
  choose G hG using hex
  set b : DagModel (Factor (storeOf vt : StoreImpl V S (Fl K))) V S := ⟨m.graph, m.factors.map fun p => (p.1, some (G p.1)), m.domains, m.check⟩ with hb
  have hbk : Dict.keys b.factors = Dict.keys m.factors := by simp [hb, Dict.keys, List.map_map, Function.comp_def]
  have hr : Represents (I := (storeOf vt : StoreImpl V S (Fl K))) b B := by
    refine ⟨hm.wf, hm.nodes, hm.parents, hbk.trans hm.keys, fun v hv => ⟨G v, G v, ?_, rfl, (hG v hv).1⟩⟩
    obtain ⟨f, h1, _⟩ := hm.table v hv
    refine Dict.get?_of_mem (by rw [hbk]; exact hk) (List.mem_map.2 ⟨(v, some f), Dict.mem_of_get? h1, rfl⟩)
  have hsame : Mixed.query ch m T ev = Mixed.query ch (modelIn vt b) T ev := by
    refine mixed_same (b := b) rfl ?_
    show _ = ((m.factors.map fun p => (p.1, some (G p.1))).map fun p => (p.1, p.2.map (inStore vt))).filter _
    rw [List.map_map, List.filter_map]
    refine Eq.trans (List.map_id _).symm ?_
    refine List.map_congr_left ?_
    rintro ⟨v, o⟩ hp
    obtain ⟨hp1, hp2⟩ := List.mem_filter.1 hp
    have hvg : v ∈ m.graph.nodes := by rw [← hm.keys]; exact Dict.mem_keys_of_mem hp1
    have hrel := (DiGraph.not_mem_irrelevant hm.wf ha hTg hvg).1 (by simpa using hp2)
    obtain ⟨f, h1, _⟩ := hm.table v (hm.nodes ▸ hvg)
    have ho : o = some f := by
      have := Dict.get?_of_mem hk hp1
      rw [h1] at this
      injection this with this
      exact this.symm
    subst ho
    have := (hG v (hm.nodes ▸ hvg)).2 f h1 (hvt v f hrel h1)
    simp [← this]
  obtain ⟨r, r1, _, r3, r4, r5⟩ := query_rep hch (VEObj.new b) hr hB hn hq hp
  refine ⟨r, ?_, r3, r4, r5⟩
  rw [hsame, query_in ch b T ev (VEObj.new b) rfl, r1]
  rfl

end Verif
