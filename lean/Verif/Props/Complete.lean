import Verif.Net.Complete
import Verif.Learn.GradientLemmas
import Verif.Props.BuildNet
import Verif.Props.Separation

/-!
# Separation reported by the library is exact (C100)

C24 shows that separated nodes are independent in every network with the graph.  Here the converse: for nodes that are not
reported as separated there is a network with the graph in which they depend on each other, and a query shows it.
-/

set_option linter.unusedSectionVars false
set_option linter.unusedSimpArgs false

namespace Verif.Props
open Verif Relation

section
variable {V S K : Type} [DecidableEq V] [DecidableEq S] [Field K] [LinearOrder K] [IsStrictOrderedRing K]

/-- The networks with a given graph. -/
structure OnGraph (g : DiGraph V) (B : BN V S K) : Prop where
  valid : B.Valid
  norm : B.Normalised
  nonneg : B.NonNeg
  nodes : g.nodes = B.nodes
  parents : ∀ v ∈ B.nodes, ∀ p, p ∈ B.parents v ↔ (p, v) ∈ g.edges

/-- `T` and `Y` are independent given `Z`. -/
def Indep (B : BN V S K) (T Y Z : List V) : Prop :=
  ∀ a, B.InStates a → B.marg (T ++ (Y ++ Z)) a * B.marg Z a = B.marg (T ++ Z) a * B.marg (Y ++ Z) a

/-- The names used for the states in the networks that show a dependence. -/
abbrev Lbl := Finset (ℕ × ℕ)

variable {g : DiGraph V} {T Y Z : List V}

theorem OnGraph.indep {B : BN V S K} (h : OnGraph g B) (hg : g.WF) (hT : ∀ t ∈ T, t ∈ g.nodes) (hY : ∀ t ∈ Y, t ∈ g.nodes)
    (hZ : ∀ t ∈ Z, t ∈ g.nodes) (hs : g.dSeparated T Y Z = true) : Indep B T Y Z := fun _ ha =>
  dsep_margs h.valid h.norm hg h.nodes h.parents (h.nodes ▸ hT) (h.nodes ▸ hY) (h.nodes ▸ hZ) hs ha

/-- For nodes that are not separated, a network and joint states possible apart but not together. -/
theorem not_separated (K : Type) [Field K] [LinearOrder K] [IsStrictOrderedRing K] (hg : g.WF) (ha : g.Acyclic) (hT : ∀ t ∈ T, t ∈ g.nodes)
    (hTY : ∀ t ∈ T, t ∉ Y) (hTZ : ∀ t ∈ T, t ∉ Z) (hYZ : ∀ y ∈ Y, y ∉ Z) (hs : g.dSeparated T Y Z ≠ true) :
    ∃ B : BN V Lbl K, OnGraph g B ∧
      ∃ a, B.InStates a ∧ B.marg (T ++ (Y ++ Z)) a = 0 ∧ 0 < B.marg (T ++ Z) a ∧ 0 < B.marg (Y ++ Z) a ∧ 0 < B.marg Z a := by
  obtain ⟨B, h1, h2, h3, h4, h5, h6⟩ := dsep_complete K hg ha hT hTY hTZ hYZ (by simpa using hs)
  exact ⟨B, ⟨h1, h2, h3, h4.symm, fun v _ p => by rw [h5, DiGraph.mem_pred]⟩, h6⟩

/-- **C100** `nx.d_separated` as the library calls it: for disjoint sets of nodes, the answer is `True` exactly when the sets
are independent in every network with the graph. -/
theorem C100_exact (K : Type) [Field K] [LinearOrder K] [IsStrictOrderedRing K] (hg : g.WF) (ha : g.Acyclic) (hT : ∀ t ∈ T, t ∈ g.nodes)
    (hY : ∀ t ∈ Y, t ∈ g.nodes) (hZ : ∀ t ∈ Z, t ∈ g.nodes) (hTY : ∀ t ∈ T, t ∉ Y) (hTZ : ∀ t ∈ T, t ∉ Z) (hYZ : ∀ y ∈ Y, y ∉ Z) :
    g.dSeparated T Y Z = true ↔ ∀ B : BN V Lbl K, OnGraph g B → Indep B T Y Z := by
  refine ⟨fun hs B hB => hB.indep hg hT hY hZ hs, fun h => ?_⟩
  by_contra hs
  obtain ⟨B, hB, a, h1, h2, h3, h4, _⟩ := not_separated K hg ha hT hTY hTZ hYZ hs
  have := h B hB a h1
  rw [h2, zero_mul] at this
  exact (mul_pos h3 h4).ne this

/-- **C100** `dsep_nodes(dag, target, evidence)`: a node outside the target is in the result exactly when it is independent of
the target given the other evidence, in every network with the graph. -/
theorem C100_dsep_nodes (K : Type) [Field K] [LinearOrder K] [IsStrictOrderedRing K] (hg : g.WF) (ha : g.Acyclic) {E : List V}
    (hT : ∀ t ∈ T, t ∈ g.nodes) (hE : ∀ t ∈ E, t ∈ g.nodes) (hTE : ∀ t ∈ T, t ∉ E) {v : V} (hv : v ∈ g.nodes) (hvT : v ∉ T) :
    v ∈ g.dsepNodes T E ↔ ∀ B : BN V Lbl K, OnGraph g B → Indep B T [v] (E.filter (· ≠ v)) := by
  rw [← C100_exact K hg ha hT (by simpa using hv) (fun t ht => hE t (List.mem_filter.1 ht).1)
    (fun t ht h => hvT (by rw [← List.mem_singleton.1 h]; exact ht)) (fun t ht h => hTE t ht (List.mem_filter.1 h).1) (by simp)]
  exact List.mem_filter.trans (and_iff_right hv)

/-- **C100** Markov blankets are the smallest sets that separate: a set `M` contains the parents, the children and the other
parents of the children of `v` exactly when, in every network with the graph, `v` is independent of the remaining nodes
given `M`. -/
theorem C100_blanket (K : Type) [Field K] [LinearOrder K] [IsStrictOrderedRing K] (hg : g.WF) (ha : g.Acyclic) {v : V} (hv : v ∈ g.nodes)
    {M O : List V} (hM : ∀ x ∈ M, x ∈ g.nodes) (hvM : v ∉ M) (hO : ∀ x, x ∈ O ↔ x ∈ g.nodes ∧ x ≠ v ∧ x ∉ M) :
    (∀ w, InBlanket g v w → w ∈ M) ↔ ∀ B : BN V Lbl K, OnGraph g B → Indep B [v] O M := by
  have hne : ∀ {x y}, (x, y) ∈ g.edges → x ≠ y := by
    rintro x y h rfl
    exact ha x (.single h)
  rw [← C100_exact K hg ha (T := [v]) (Y := O) (Z := M) (by simpa using hv) (fun x hx => ((hO x).1 hx).1) hM
    (by simpa using fun h => ((hO v).1 h).2.1 rfl) (by simpa using hvM) (fun y hy => ((hO y).1 hy).2.2),
    dSeparated_iff hg ha (by simpa using hv)]
  constructor
  · intro h t ht y hy hr
    obtain rfl : t = v := by simpa using ht
    obtain ⟨_, y2, y3⟩ := (hO y).1 hy
    have inv : ∀ x, ReflTransGen (fun u w => (g.Edge u w ∧ u ∉ M ∧ g.Needed ([t] ++ O ++ M) w) ∨
        (g.Edge w u ∧ w ∉ M ∧ g.Needed ([t] ++ O ++ M) u)) t x → x = t ∨ (t, x) ∈ g.edges := by
      intro x hx
      induction hx with
      | refl => exact .inl rfl
      | @tail b c _ hbc ih =>
        rcases hbc with ⟨e, f, _⟩ | ⟨e, f, _⟩
        · rcases ih with rfl | ih
          · exact .inr e
          · exact absurd (h b (.inr (.inl ih))) f
        · rcases ih with rfl | ih
          · exact absurd (h c (.inl e)) f
          · by_cases hc : c = t
            · exact .inl hc
            · exact absurd (h c (.inr (.inr ⟨hc, b, ih, e⟩))) f
    rcases inv y hr with h' | h'
    · exact y2 h'
    · exact y3 (h y (.inr (.inl h')))
  · intro h w hw
    by_contra hwM
    have need : ∀ {x}, x ∈ g.nodes → g.Needed ([v] ++ O ++ M) x := by
      intro x hx
      refine ⟨x, ?_, .refl⟩
      by_cases h1 : x ∈ M
      · exact List.mem_append_right _ h1
      · by_cases h2 : x = v
        · simp [h2]
        · have : x ∈ O := (hO x).2 ⟨hx, h2, h1⟩
          simp [this]
    have key : ∀ c, (v, c) ∈ g.edges → c ∈ M := by
      intro c hc
      by_contra hcM
      exact h v (by simp) c ((hO c).2 ⟨(hg.ends _ hc).2, (hne hc).symm, hcM⟩) (.single (.inl ⟨hc, hvM, need (hg.ends _ hc).2⟩))
    rcases hw with hw | hw | ⟨h1, c, hc, hw⟩
    · exact h v (by simp) w ((hO w).2 ⟨(hg.ends _ hw).1, hne hw, hwM⟩) (.single (.inr ⟨hw, hwM, need hv⟩))
    · exact hwM (key w hw)
    · exact h v (by simp) w ((hO w).2 ⟨(hg.ends _ hw).1, h1, hwM⟩)
        ((ReflTransGen.single (.inl ⟨hc, hvM, need (hg.ends _ hc).2⟩)).tail (.inr ⟨hw, hwM, need (hg.ends _ hc).2⟩))

/-- The tables of a network with a given graph can be given to the constructors. -/
theorem OnGraph.build [Inhabited S] (vt : VType) {B : BN V S K} (h : OnGraph g B) (hg : g.WF) :
    ∃ m, buildNet vt B g (domOf B) B.nodes true = .ok m ∧ m.graph = g ∧ Represents m B := by
  refine C93_build h.valid hg h.nodes h.parents (fun v hv => ?_) (List.Perm.refl _) true
  have hvp : v ∉ B.parents v := fun hp => h.valid.acyclic v (.single ⟨hv, hp⟩)
  have hk : Dict.keys (domOf B v) = v :: (B.parents v).dedup := by simp [domOf, Dict.keys, Function.comp_def]
  refine ⟨?_, fun w => ?_, fun p hp => ?_⟩
  · rw [hk]; exact List.nodup_cons.2 ⟨by simpa using hvp, List.nodup_dedup _⟩
  · rw [hk]; simp
  · rcases List.mem_cons.1 hp with rfl | hp
    · rfl
    · obtain ⟨q, _, rfl⟩ := List.mem_map.1 hp; rfl

theorem asg_map_pair [Nonempty S] {l : List V} (a : V → S) {x : V} (h : x ∈ l) : asg (l.map fun x => (x, a x)) x = a x := by
  rw [asg, over_of_get? (Gradient.get?_map_pair l a h)]

/-- The posterior that a query returns, written with one assignment. -/
theorem query_value [Inhabited S] {vt : VType} {F : Type} [VEFactor F (storeOf vt : StoreImpl V S (Fl K))] {ch : Choices V} (hch : ch.Ok)
    (o : VEObj F (storeOf vt : StoreImpl V S (Fl K))) {B : BN V S K} (hr : Represents o.model B) (hB : B.Valid) (hn : B.Normalised)
    {T E : List V} (hT : T ≠ []) (hTn : T.Nodup) (hTB : ∀ t ∈ T, t ∈ B.nodes) (hEn : E.Nodup) (hEB : ∀ e ∈ E, e ∈ B.nodes)
    (hTE : ∀ t ∈ T, t ∉ E) {a : V → S} (ha : B.InStates a) (hp : B.marg E a ≠ 0) :
    ∃ r, (o.query ch T (some (E.map fun e => (e, a e)))).2 = .ok r ∧ (∀ v, v ∈ r.vars ↔ v ∈ T) ∧
      r.getValue (T.map fun t => (t, a t)) = .ok (.fin (B.marg (T ++ E) a / B.marg E a)) := by
  have hk : Dict.keys (E.map fun e => (e, a e)) = E := by simp [Dict.keys, Function.comp_def]
  have hst : ∀ v ∈ E, asg (E.map fun e => (e, a e)) v = a v := fun v hv => asg_map_pair a hv
  have hm : B.marg E (asg (E.map fun e => (e, a e))) = B.marg E a := hB.marg_dep _ _ _ hst
  obtain ⟨r, q1, q2, q3, q4, q5, q6⟩ := C36_exact_posterior hch o hr hB hn (T := T) (ev := E.map fun e => (e, a e))
    (e := some (E.map fun e => (e, a e)))
    ⟨hT, hTn, hTB, ⟨by rw [hk]; exact hEn, by rw [hk]; exact hEB, fun v s hs => by
      have hv : v ∈ E := by
        have := (Dict.get?_isSome (d := E.map fun e => (e, a e)) (k := v)).1 (by rw [hs]; rfl)
        rwa [hk] at this
      rw [Gradient.get?_map_pair E a hv] at hs
      obtain rfl := Option.some.inj hs
      exact ha v (hEB v hv)⟩, by rw [hk]; exact hTE⟩ rfl (by rw [hk, hm]; exact hp)
  refine ⟨r, q1, q4, ?_⟩
  rw [q6, hk, hm]
  · have : B.marg (T ++ E) (asg ((E.map fun e => (e, a e)) ++ T.map fun t => (t, a t))) = B.marg (T ++ E) a := by
      refine hB.marg_dep _ _ _ fun v hv => ?_
      rw [asg_append]
      by_cases hE : v ∈ E
      · rw [over_of_get? (Gradient.get?_map_pair E a hE)]
      · have hT : v ∈ T := (List.mem_append.1 hv).resolve_right hE
        rw [over, Dict.get?_eq_none.2 (by rw [hk]; exact hE)]
        exact asg_map_pair a hT
    rw [this]
  · intro p hp
    have ht : p.1 ∈ T := (q4 _).1 (Dict.mem_keys_of_mem hp)
    exact ⟨a p.1, by rw [q3 p hp]; exact ha _ (hTB _ ht), Gradient.get?_map_pair T a ht⟩

/-- **C100** every store type, every inference object on the model and every admissible elimination order: for a node that is
not in `dsep_nodes(dag, target, evidence)` there is a model with this graph, which the constructors accept, states of the
evidence, of the targets and of the node, such that the query with the evidence gives the states of the targets a positive
probability and the query with the node observed as well gives them zero. -/
theorem C100_query (vt : VType) (K : Type) [Field K] [LinearOrder K] [IsStrictOrderedRing K] (hg : g.WF) (ha : g.Acyclic) {E : List V}
    (hT0 : T ≠ []) (hTn : T.Nodup) (hT : ∀ t ∈ T, t ∈ g.nodes) (hEn : E.Nodup) (hE : ∀ t ∈ E, t ∈ g.nodes) (hTE : ∀ t ∈ T, t ∉ E)
    {v : V} (hv : v ∈ g.nodes) (hvT : v ∉ T) (hvE : v ∉ E) (hs : v ∉ g.dsepNodes T E) :
    ∃ (B : BN V Lbl K) (m : DagModel (Factor (storeOf vt : StoreImpl V Lbl (Fl K))) V Lbl) (a : V → Lbl), OnGraph g B ∧
      buildNet vt B g (domOf B) B.nodes true = .ok m ∧ m.graph = g ∧
      ∀ ch : Choices V, ch.Ok → ∀ o : VEObj (Factor (storeOf vt)) (storeOf vt : StoreImpl V Lbl (Fl K)), o.model = m →
        ∃ r r' x, (o.query ch T (some (E.map fun e => (e, a e)))).2 = .ok r ∧
          (o.query ch T (some ((v, a v) :: E.map fun e => (e, a e)))).2 = .ok r' ∧ 0 < x ∧
          r.getValue (T.map fun t => (t, a t)) = .ok (.fin x) ∧ r'.getValue (T.map fun t => (t, a t)) = .ok (.fin 0) := by
  have hf : E.filter (· ≠ v) = E := List.filter_eq_self.2 fun e he => by
    have : e ≠ v := fun h => hvE (h ▸ he)
    simpa using this
  have hs' : g.dSeparated T [v] E ≠ true := by
    intro h
    refine hs (List.mem_filter.2 ⟨hv, ?_⟩)
    rw [hf]; exact h
  have hvE' : ∀ t ∈ T, t ∉ v :: E := fun t ht h => by
    rcases List.mem_cons.1 h with rfl | h
    · exact hvT ht
    · exact hTE t ht h
  obtain ⟨B, hB, a, h1, h2, h3, h4, h5⟩ := not_separated K hg ha hT
    (fun t ht h => hvT (by rw [← List.mem_singleton.1 h]; exact ht)) hTE (by simpa using hvE) hs'
  obtain ⟨m, m1, m2, m3⟩ := hB.build vt hg
  refine ⟨B, m, a, hB, m1, m2, fun ch hch o ho => ?_⟩
  obtain ⟨r, r1, _, r2⟩ := query_value hch o (ho ▸ m3) hB.valid hB.norm hT0 hTn (hB.nodes ▸ hT) hEn (hB.nodes ▸ hE) hTE h1 h5.ne'
  obtain ⟨r', s1, _, s2⟩ := query_value hch o (ho ▸ m3) hB.valid hB.norm hT0 hTn (hB.nodes ▸ hT) (E := v :: E)
    (List.nodup_cons.2 ⟨hvE, hEn⟩) (by rw [← hB.nodes]; simpa using ⟨hv, hE⟩) hvE' h1 h4.ne'
  refine ⟨r, r', _, r1, s1, div_pos h3 h5, r2, ?_⟩
  rw [s2]
  have : B.marg (T ++ v :: E) a = 0 := h2
  rw [this, zero_div]

end

/-- In the example graph `A` is not separated from `D` before `B` is known, and it is afterwards. -/
theorem C100_example (vt : VType) : 'A' ∈ gEx.dsepNodes ['D'] ['B'] ∧
    ∃ (B : BN Char Lbl ℚ) (m : DagModel (Factor (storeOf vt : StoreImpl Char Lbl (Fl ℚ))) Char Lbl) (a : Char → Lbl), OnGraph gEx B ∧
      buildNet vt B gEx (domOf B) B.nodes true = .ok m ∧ m.graph = gEx ∧
      ∀ ch : Choices Char, ch.Ok → ∀ o : VEObj (Factor (storeOf vt)) (storeOf vt : StoreImpl Char Lbl (Fl ℚ)), o.model = m →
        ∃ r r' x, (o.query ch ['D'] (some [])).2 = .ok r ∧ (o.query ch ['D'] (some [('A', a 'A')])).2 = .ok r' ∧ 0 < x ∧
          r.getValue [('D', a 'D')] = .ok (.fin x) ∧ r'.getValue [('D', a 'D')] = .ok (.fin 0) :=
  ⟨by decide +kernel, C100_query vt ℚ gEx_wf gEx_acyclic (T := ['D']) (E := []) (by simp) (by simp) (by decide) (by simp) (by simp)
    (by simp) (v := 'A') (by decide) (by decide) (by simp) (by decide +kernel)⟩

/-- The converse needs targets that are not observed: with `B` both target and evidence the library reports its parent `A` as
not separated, though an observed variable is independent of everything. -/
theorem C100_observed_target {K : Type} [Field K] [LinearOrder K] [IsStrictOrderedRing K] :
    'A' ∉ gEx.dsepNodes ['B'] ['B'] ∧ ∀ B : BN Char Lbl K, Indep B ['B'] ['A'] ['B'] := by
  refine ⟨by decide +kernel, fun B a _ => ?_⟩
  have h : ∀ l, B.marg ('B' :: l ++ ['B']) a = B.marg (l ++ ['B']) a := fun l => by
    simp only [BN.marg, List.cons_append, List.mem_cons, List.mem_append]
    congr 1
    refine List.filter_congr fun x _ => ?_
    by_cases h : x = 'B' <;> simp [h]
  have h1 := h ['A']
  have h2 := h []
  simp only [List.cons_append, List.nil_append] at h1 h2 ⊢
  rw [h1, h2, mul_comm]

end Verif.Props
