import Verif.Graph.Ordering
import Verif.Graph.Lemmas
import Verif.Spec.Elim

/-!
# Elimination orders: helper lemmas
-/

set_option linter.unusedSectionVars false
set_option linter.unusedSimpArgs false

namespace Verif
variable {V : Type} [DecidableEq V]

namespace UGraph

theorem mem_insertArc {h : UGraph V} {e x : V × V} : x ∈ (h.insertArc e).arcs ↔ x ∈ h.arcs ∨ x = e := by
  rw [insertArc]; split
  · constructor
    · exact .inl
    · rintro (h | rfl) <;> assumption
  · simp

theorem mem_addEdge {h : UGraph V} {e x : V × V} : x ∈ (h.addEdge e).arcs ↔ x ∈ h.arcs ∨ x = e ∨ x = e.swap := by
  rw [addEdge, mem_insertArc, mem_insertArc, or_assoc]

theorem mem_addEdges {es : List (V × V)} {h : UGraph V} {x : V × V} :
    x ∈ (h.addEdges es).arcs ↔ x ∈ h.arcs ∨ x ∈ es ∨ x.swap ∈ es := by
  induction es generalizing h with
  | nil => simp [addEdges]
  | cons e es ih =>
    rw [addEdges, List.foldl_cons, ← addEdges, ih, mem_addEdge, List.mem_cons, List.mem_cons]
    have : x = e.swap ↔ x.swap = e := by
      constructor
      · rintro rfl; simp
      · rintro rfl; simp
    rw [this]
    tauto

theorem nodes_insertArc {h : UGraph V} {e : V × V} : (h.insertArc e).nodes = h.nodes := by
  rw [insertArc]; split <;> rfl

theorem nodes_addEdges {es : List (V × V)} {h : UGraph V} : (h.addEdges es).nodes = h.nodes := by
  induction es generalizing h with
  | nil => rfl
  | cons e es ih =>
    rw [addEdges, List.foldl_cons, ← addEdges, ih, addEdge, nodes_insertArc, nodes_insertArc]

theorem nodup_insertArc {h : UGraph V} {e : V × V} (hn : h.arcs.Nodup) : (h.insertArc e).arcs.Nodup := by
  rw [insertArc]; split
  · exact hn
  · rename_i he
    exact List.nodup_append'.2 ⟨hn, List.nodup_singleton _, by
      intro x hx h2; rw [List.mem_singleton] at h2; subst h2; exact he hx⟩

theorem nodup_addEdges {es : List (V × V)} {h : UGraph V} (hn : h.arcs.Nodup) : (h.addEdges es).arcs.Nodup := by
  induction es generalizing h with
  | nil => exact hn
  | cons e es ih =>
    rw [addEdges, List.foldl_cons, ← addEdges]
    exact ih (nodup_insertArc (nodup_insertArc hn))

theorem mem_adj {h : UGraph V} {v w : V} : w ∈ h.adj v ↔ (v, w) ∈ h.arcs := by
  simp only [adj, List.mem_map, List.mem_filter, decide_eq_true_eq]
  constructor
  · rintro ⟨⟨a, b⟩, ⟨h1, rfl⟩, rfl⟩; exact h1
  · intro h1; exact ⟨(v, w), ⟨h1, rfl⟩, rfl⟩

theorem nodup_adj {h : UGraph V} (hn : h.arcs.Nodup) (v : V) : (h.adj v).Nodup := by
  refine List.Nodup.map_on ?_ (hn.filter _)
  rintro ⟨a, b⟩ h1 ⟨c, d⟩ h2 h3
  simp only [List.mem_filter, decide_eq_true_eq] at h1 h2
  obtain ⟨_, rfl⟩ := h1
  obtain ⟨_, rfl⟩ := h2
  simp at h3
  rw [h3]

end UGraph

theorem mem_combos2 {l : List V} (hn : l.Nodup) {x y : V} (h : x ≠ y) :
    ((x, y) ∈ combos2 l ∨ (y, x) ∈ combos2 l) ↔ x ∈ l ∧ y ∈ l := by
  induction l with
  | nil => simp [combos2]
  | cons z l ih =>
    rw [List.nodup_cons] at hn
    have := ih hn.2
    simp only [combos2, List.mem_append, List.mem_map, Prod.mk.injEq, List.mem_cons]
    constructor
    · rintro ((⟨w, hw, rfl, rfl⟩ | h1) | (⟨w, hw, rfl, rfl⟩ | h1))
      · exact ⟨.inl rfl, .inr hw⟩
      · obtain ⟨a, b⟩ := this.1 (.inl h1); exact ⟨.inr a, .inr b⟩
      · exact ⟨.inr hw, .inl rfl⟩
      · obtain ⟨a, b⟩ := this.1 (.inr h1); exact ⟨.inr a, .inr b⟩
    · rintro ⟨rfl | h1, rfl | h2⟩
      · exact absurd rfl h
      · exact .inl (.inl ⟨y, h2, rfl, rfl⟩)
      · exact .inr (.inl ⟨x, h1, rfl, rfl⟩)
      · rcases this.2 ⟨h1, h2⟩ with h | h
        · exact .inl (.inr h)
        · exact .inr (.inr h)

theorem mem_combos2_of {l : List V} {x y : V} (h : (x, y) ∈ combos2 l) : x ∈ l ∧ y ∈ l := by
  induction l with
  | nil => simp [combos2] at h
  | cons z l ih =>
    simp only [combos2, List.mem_append, List.mem_map, Prod.mk.injEq, List.mem_cons] at h ⊢
    rcases h with ⟨w, hw, rfl, rfl⟩ | h
    · exact ⟨.inl rfl, .inr hw⟩
    · exact ⟨.inr (ih h).1, .inr (ih h).2⟩

theorem combos2_ne {l : List V} (hn : l.Nodup) {x y : V} (h : (x, y) ∈ combos2 l) : x ≠ y := by
  induction l with
  | nil => simp [combos2] at h
  | cons z l ih =>
    rw [List.nodup_cons] at hn
    simp only [combos2, List.mem_append, List.mem_map, Prod.mk.injEq] at h
    rcases h with ⟨w, hw, rfl, rfl⟩ | h
    · rintro rfl; exact hn.1 hw
    · exact ih hn.2 h

/-- Ordered pairs count twice. -/
theorem combos2_count {l : List V} (hn : l.Nodup) (R : V → V → Prop) [DecidableRel R] (hs : ∀ x y, R x y → R y x) :
    2 * ((combos2 l).filter fun p => R p.1 p.2).length
      = (l.map fun x => (l.filter fun y => x ≠ y ∧ R x y).length).sum := by
  induction l with
  | nil => rfl
  | cons z l ih =>
    rw [List.nodup_cons] at hn
    have h1 : ((z :: l).filter fun y => z ≠ y ∧ R z y) = l.filter fun y => R z y := by
      rw [List.filter_cons_of_neg (by simp)]
      refine List.filter_congr fun y hy => ?_
      have : z ≠ y := by rintro rfl; exact hn.1 hy
      simp [this]
    have h2 : ∀ x ∈ l, ((z :: l).filter fun y => x ≠ y ∧ R x y).length
        = (if R z x then 1 else 0) + (l.filter fun y => x ≠ y ∧ R x y).length := by
      intro x hx
      have hxz : x ≠ z := by rintro rfl; exact hn.1 hx
      by_cases hR : R x z
      · rw [List.filter_cons_of_pos (by simp [hxz, hR]), if_pos (hs _ _ hR), List.length_cons, add_comm]
      · rw [List.filter_cons_of_neg (by simp [hR]), if_neg (fun h => hR (hs _ _ h)), zero_add]
    have h3 : (l.map fun x => if R z x then 1 else 0).sum = (l.filter fun y => R z y).length := by
      clear ih h1 h2 hn
      induction l with
      | nil => rfl
      | cons a l ih =>
        by_cases h : R z a
        · simp [h, ih, add_comm]
        · simp [h, ih]
    rw [List.map_cons, List.sum_cons, h1, List.map_congr_left h2, List.sum_map_add, h3, ← ih hn.2,
      combos2, List.filter_append, List.length_append, List.filter_map, List.length_map]
    have : (fun p : V × V => decide (R p.1 p.2)) ∘ (fun y => (z, y)) = fun y => decide (R z y) := rfl
    rw [this]
    omega

namespace Ordering

variable {g : DiGraph V}

theorem Moral.symm {x y : V} (h : Moral g x y) : Moral g y x := by
  obtain ⟨h1, h2⟩ := h
  refine ⟨h1.symm, ?_⟩
  rcases h2 with h | h | ⟨c, h, h'⟩
  · exact .inr (.inl h)
  · exact .inl h
  · exact .inr (.inr ⟨c, h', h⟩)

theorem Via.trans {X : List V} {x z y : V} (h1 : Via g X x z) (hz : z ∈ X) (h2 : Via g X z y) : Via g X x y := by
  induction h1 with
  | edge h => exact .step h hz h2
  | step h hw _ ih => exact .step h hw (ih hz h2)

theorem Via.symm {X : List V} {x y : V} (h : Via g X x y) : Via g X y x := by
  induction h with
  | edge h => exact .edge h.symm
  | step h hz _ ih => exact ih.trans hz (.edge h.symm)

theorem Via.mono {X Y : List V} (hXY : ∀ v ∈ X, v ∈ Y) {x y : V} (h : Via g X x y) : Via g Y x y := by
  induction h with
  | edge h => exact .edge h
  | step h hz _ ih => exact .step h (hXY _ hz) ih

theorem Via.split {X : List V} {w x y : V} (h : Via g (w :: X) x y) :
    Via g X x y ∨ (Via g X x w ∧ Via g X w y) := by
  induction h with
  | edge h => exact .inl (.edge h)
  | step h hz _ ih =>
    rcases List.mem_cons.1 hz with rfl | hz
    · refine .inr ⟨.edge h, ?_⟩
      rcases ih with h | h
      · exact h
      · exact h.2
    · rcases ih with h' | ⟨h1, h2⟩
      · exact .inl (.step h hz h')
      · exact .inr ⟨.step h hz h1, h2⟩

theorem ElimAdj.symm {X : List V} {x y : V} (h : ElimAdj g X x y) : ElimAdj g X y x :=
  ⟨h.1.symm, h.2.2.1, h.2.1, h.2.2.2.symm⟩

theorem Via.congr {X Y : List V} (hXY : ∀ v, v ∈ X ↔ v ∈ Y) {x y : V} : Via g X x y ↔ Via g Y x y :=
  ⟨Via.mono fun v hv => (hXY v).1 hv, Via.mono fun v hv => (hXY v).2 hv⟩

theorem ElimAdj.congr {X Y : List V} (hXY : ∀ v, v ∈ X ↔ v ∈ Y) {x y : V} : ElimAdj g X x y ↔ ElimAdj g Y x y := by
  rw [ElimAdj, ElimAdj, hXY, hXY, Via.congr hXY]

theorem elimAdj_cons {X : List V} {w x y : V} (hw : w ∉ X) :
    ElimAdj g (w :: X) x y ↔ x ≠ w ∧ y ≠ w ∧ (ElimAdj g X x y ∨ (x ≠ y ∧ ElimAdj g X w x ∧ ElimAdj g X w y)) := by
  constructor
  · rintro ⟨h1, h2, h3, h4⟩
    rw [List.mem_cons, not_or] at h2 h3
    refine ⟨h2.1, h3.1, ?_⟩
    rcases h4.split with h | ⟨h, h'⟩
    · exact .inl ⟨h1, h2.2, h3.2, h⟩
    · exact .inr ⟨h1, ⟨fun e => h2.1 e.symm, hw, h2.2, h.symm⟩, ⟨fun e => h3.1 e.symm, hw, h3.2, h'⟩⟩
  · rintro ⟨hx, hy, h⟩
    rcases h with ⟨h1, h2, h3, h4⟩ | ⟨h1, h2, h3⟩
    · exact ⟨h1, by simp [hx, h2], by simp [hy, h3], h4.mono fun v hv => List.mem_cons_of_mem _ hv⟩
    · refine ⟨h1, by simp [hx, h2.2.2.1], by simp [hy, h3.2.2.1], ?_⟩
      have m : ∀ v ∈ X, v ∈ w :: X := fun v hv => List.mem_cons_of_mem _ hv
      exact (h2.2.2.2.mono m).symm.trans List.mem_cons_self (h3.2.2.2.mono m)

/-- The graph held by the loop after eliminating `X`. -/
structure Inv (g : DiGraph V) (X : List V) (h : UGraph V) : Prop where
  nodes : h.nodes = g.nodes.filter (· ∉ X)
  nodup : h.arcs.Nodup
  adj : ∀ x y, (x, y) ∈ h.arcs ↔ ElimAdj g X x y

theorem mem_foldl_moral {vs : List V} {h : UGraph V} {x : V × V} :
    x ∈ (vs.foldl (fun h v => h.addEdges (combos2 (g.pred v))) h).arcs ↔
      x ∈ h.arcs ∨ ∃ v ∈ vs, x ∈ combos2 (g.pred v) ∨ x.swap ∈ combos2 (g.pred v) := by
  induction vs generalizing h with
  | nil => simp
  | cons v vs ih =>
    rw [List.foldl_cons, ih, UGraph.mem_addEdges]
    simp only [List.mem_cons, exists_eq_or_imp]
    rw [or_assoc]

theorem nodes_foldl_moral {vs : List V} {h : UGraph V} :
    (vs.foldl (fun h v => h.addEdges (combos2 (g.pred v))) h).nodes = h.nodes := by
  induction vs generalizing h with
  | nil => rfl
  | cons v vs ih => rw [List.foldl_cons, ih, UGraph.nodes_addEdges]

theorem nodup_foldl_moral {vs : List V} {h : UGraph V} (hn : h.arcs.Nodup) :
    (vs.foldl (fun h v => h.addEdges (combos2 (g.pred v))) h).arcs.Nodup := by
  induction vs generalizing h with
  | nil => exact hn
  | cons v vs ih => rw [List.foldl_cons]; exact ih (UGraph.nodup_addEdges hn)

theorem pred_nodup (hg : g.WF) (v : V) : (g.pred v).Nodup := by
  refine List.Nodup.map_on ?_ (hg.edges.filter _)
  rintro ⟨a, b⟩ h1 ⟨c, d⟩ h2 h3
  simp only [List.mem_filter, decide_eq_true_eq] at h1 h2
  obtain ⟨_, rfl⟩ := h1
  obtain ⟨_, rfl⟩ := h2
  simp at h3
  rw [h3]

theorem via_nil {x y : V} : Via g [] x y ↔ Moral g x y := by
  constructor
  · rintro (h | ⟨_, h, _⟩)
    · exact h
    · cases h
  · exact .edge

theorem inv_moral (hg : g.WF) (ha : g.Acyclic) : Inv g [] (moral g) := by
  have loop : ∀ x y, (x, y) ∈ g.edges → x ≠ y := by
    rintro x y h rfl
    exact ha x (.single h)
  refine ⟨?_, ?_, ?_⟩
  · rw [moral, nodes_foldl_moral, UGraph.nodes_addEdges]
    simp
  · exact nodup_foldl_moral (UGraph.nodup_addEdges List.nodup_nil)
  · intro x y
    rw [moral, mem_foldl_moral, UGraph.mem_addEdges]
    simp only [ElimAdj, List.not_mem_nil, not_false_eq_true, true_and, via_nil, false_or, Prod.swap_prod_mk]
    constructor
    · rintro ((h | h) | ⟨v, hv, h⟩)
      · exact ⟨loop _ _ h, loop _ _ h, .inl h⟩
      · exact ⟨(loop _ _ h).symm, (loop _ _ h).symm, .inr (.inl h)⟩
      · have hxy : x ≠ y := by
          rcases h with h | h
          · exact combos2_ne (pred_nodup hg v) h
          · exact (combos2_ne (pred_nodup hg v) h).symm
        obtain ⟨h1, h2⟩ := (mem_combos2 (pred_nodup hg v) hxy).1 h
        exact ⟨hxy, hxy, .inr (.inr ⟨v, DiGraph.mem_pred.1 h1, DiGraph.mem_pred.1 h2⟩)⟩
    · rintro ⟨_, hxy, h | h | ⟨c, h1, h2⟩⟩
      · exact .inl (.inl h)
      · exact .inl (.inr h)
      · exact .inr ⟨c, (hg.ends _ h1).2, (mem_combos2 (pred_nodup hg c) hxy).2
          ⟨DiGraph.mem_pred.2 h1, DiGraph.mem_pred.2 h2⟩⟩

theorem inv_step {X : List V} {h : UGraph V} (hi : Inv g X h) {w : V} (hw : w ∉ X) :
    Inv g (w :: X) ((h.addEdges (fillinArcs h w)).removeNode w) := by
  have hadj : ∀ x y, y ∈ h.adj x ↔ ElimAdj g X x y := fun x y => UGraph.mem_adj.trans (hi.adj x y)
  have hwn := UGraph.nodup_adj hi.nodup w
  refine ⟨?_, (UGraph.nodup_addEdges hi.nodup).filter _, ?_⟩
  · show (h.addEdges (fillinArcs h w)).nodes.filter _ = _
    rw [UGraph.nodes_addEdges, hi.nodes, List.filter_filter]
    refine List.filter_congr fun v _ => ?_
    simp [not_or, Bool.and_comm]
  · intro x y
    show (x, y) ∈ (h.addEdges (fillinArcs h w)).arcs.filter _ ↔ _
    rw [List.mem_filter, UGraph.mem_addEdges, hi.adj, elimAdj_cons hw]
    simp only [decide_eq_true_eq, fillinArcs, List.mem_filter, Prod.swap_prod_mk, hadj]
    constructor
    · rintro ⟨h1, h2, h3⟩
      refine ⟨h2, h3, ?_⟩
      rcases h1 with h | ⟨h, _⟩ | ⟨h, _⟩
      · exact .inl h
      · have := combos2_ne hwn h
        obtain ⟨a, b⟩ := mem_combos2_of h
        exact .inr ⟨this, (hadj _ _).1 a, (hadj _ _).1 b⟩
      · have := combos2_ne hwn h
        obtain ⟨a, b⟩ := mem_combos2_of h
        exact .inr ⟨this.symm, (hadj _ _).1 b, (hadj _ _).1 a⟩
    · rintro ⟨h1, h2, h3⟩
      refine ⟨?_, h1, h2⟩
      rcases h3 with h | ⟨hne, hx, hy⟩
      · exact .inl h
      · by_cases hxy : ElimAdj g X x y
        · exact .inl hxy
        · rcases (mem_combos2 hwn hne).2 ⟨(hadj _ _).2 hx, (hadj _ _).2 hy⟩ with h | h
          · exact .inr (.inl ⟨h, hxy⟩)
          · exact .inr (.inr ⟨h, fun hc => hxy hc.symm⟩)

theorem adj_perm (hg : g.WF) {X : List V} {h : UGraph V} (hi : Inv g X h) (v : V) :
    (h.adj v).Perm (elimNbrs g X v) := by
  classical
  refine (List.perm_ext_iff_of_nodup (UGraph.nodup_adj hi.nodup v) (hg.nodes.filter _)).2 fun w => ?_
  rw [UGraph.mem_adj, hi.adj, List.mem_filter]
  constructor
  · intro hE
    refine ⟨?_, by simpa using hE⟩
    have key : ∀ {x y}, Via g X x y → y ∈ g.nodes := by
      intro x y hv
      induction hv with
      | edge h =>
        rcases h.2 with h | h | ⟨c, _, h⟩
        · exact (hg.ends _ h).2
        · exact (hg.ends _ h).1
        · exact (hg.ends _ h).1
      | step _ _ _ ih => exact ih
    exact key hE.2.2.2
  · intro h2; simpa using h2.2

/-- `minFill` costs are half of the specified ones. -/
def scale : Kind → Nat
  | .minFill => 2
  | _ => 1

theorem cost_ok (hg : g.WF) {sizes : List (V × Nat)} {size : V → Nat}
    (k : Kind) (hs : k = .minWeight → ∀ v ∈ g.nodes, Dict.get sizes v = .ok (size v))
    {X : List V} {h : UGraph V} (hi : Inv g X h) {v : V} (hv : v ∈ g.nodes) (hX : v ∉ X) :
    ∃ c, cost sizes k h v = .ok c ∧ specCost g size k X v = scale k * c := by
  classical
  have hvn : v ∈ h.nodes := by rw [hi.nodes]; simp [hv, hX]
  have hp := adj_perm hg hi v
  cases k with
  | minSize =>
    refine ⟨_, by rw [cost, if_neg (by simpa using hvn)], ?_⟩
    simp only [specCost, scale, one_mul]
    exact hp.length_eq.symm
  | minWeight =>
    have hm : (h.adj v ++ [v]).mapM (fun u => Dict.get sizes u) = .ok ((h.adj v ++ [v]).map size) := by
      refine mapM_ok fun u hu => hs rfl u ?_
      rcases List.mem_append.1 hu with hu | hu
      · exact List.mem_of_mem_filter (hp.mem_iff.1 hu)
      · rw [List.mem_singleton] at hu; rw [hu]; exact hv
    refine ⟨((h.adj v ++ [v]).map size).prod, by rw [cost, if_neg (by simpa using hvn)]; simp only [hm]; rfl, ?_⟩
    simp only [specCost, scale, one_mul, List.map_append, List.map_cons, List.map_nil, List.prod_append,
      List.prod_cons, List.prod_nil, mul_one]
    rw [(hp.map size).prod_eq]
  | minFill =>
    refine ⟨_, by rw [cost, if_neg (by simpa using hvn)], ?_⟩
    simp only [specCost, scale]
    have h1 : fillinArcs h v = (combos2 (h.adj v)).filter fun p => ¬ ElimAdj g X p.1 p.2 := by
      refine List.filter_congr fun p _ => ?_
      have : p.2 ∈ h.adj p.1 ↔ ElimAdj g X p.1 p.2 := UGraph.mem_adj.trans (hi.adj _ _)
      simp only [this]
    rw [h1, combos2_count (UGraph.nodup_adj hi.nodup v) (fun x y => ¬ ElimAdj g X x y)
      (fun x y hxy hc => hxy hc.symm), missing]
    have h2 : ∀ x, (((elimNbrs g X v)).filter fun y => x ≠ y ∧ ¬ ElimAdj g X x y).length
        = ((h.adj v).filter fun y => x ≠ y ∧ ¬ ElimAdj g X x y).length := fun x => (hp.symm.filter _).length_eq
    simp only [h2]
    exact (hp.symm.map _).sum_eq

theorem foldl_min_spec (l : List Nat) (a : Nat) :
    (l.foldl min a ∈ a :: l) ∧ ∀ x ∈ a :: l, l.foldl min a ≤ x := by
  induction l generalizing a with
  | nil => simp
  | cons b l ih =>
    obtain ⟨h1, h2⟩ := ih (min a b)
    rw [List.foldl_cons]
    refine ⟨?_, ?_⟩
    · rcases List.mem_cons.1 h1 with h | h
      · rw [h]
        rcases min_choice a b with h | h <;> rw [h] <;> simp
      · simp [h]
    · intro x hx
      have h3 := h2 (min a b) List.mem_cons_self
      rcases List.mem_cons.1 hx with rfl | hx
      · omega
      · rcases List.mem_cons.1 hx with rfl | hx
        · omega
        · exact h2 x (List.mem_cons_of_mem _ hx)

theorem loop_ok (hg : g.WF) {sizes : List (V × Nat)} {size : V → Nat} (k : Kind)
    (hs : k = .minWeight → ∀ v ∈ g.nodes, Dict.get sizes v = .ok (size v)) (rnd : Nat → Nat) :
    ∀ (n : Nat) (X : List V) (h : UGraph V) (rm : List V), Inv g X h → rm.length = n → rm.Nodup →
      (∀ v ∈ rm, v ∈ g.nodes) → (∀ v ∈ rm, v ∉ X) →
      ∃ o, loop sizes k rnd n h rm = .ok o ∧ o.Perm rm ∧
        ∀ pre v post, o = pre ++ v :: post → ∀ w ∈ v :: post,
          specCost g size k (pre.reverse ++ X) v ≤ specCost g size k (pre.reverse ++ X) w := by
  intro n
  induction n with
  | zero =>
    intro X h rm _ hl _ _ _
    rw [List.length_eq_zero_iff] at hl
    subst hl
    exact ⟨[], rfl, List.Perm.nil, by intro pre v post h; simp at h⟩
  | succ n ih =>
    intro X h rm hi hl hnd hmem hX
    have hne : rm ≠ [] := by rintro rfl; simp at hl
    have hc : ∀ v, ∃ c, v ∈ rm → cost sizes k h v = .ok c ∧ specCost g size k X v = scale k * c := by
      intro v
      by_cases hv : v ∈ rm
      · obtain ⟨c, hc⟩ := cost_ok hg k hs hi (hmem v hv) (hX v hv)
        exact ⟨c, fun _ => hc⟩
      · exact ⟨0, fun h => absurd h hv⟩
    choose c hc using hc
    have hm : rm.mapM (cost sizes k h) = .ok (rm.map c) := mapM_ok fun v hv => (hc v hv).1
    set least := (rm.map c).foldl min ((rm.map c).headD 0) with hleast
    have hmin : (∃ v ∈ rm, c v = least) ∧ ∀ v ∈ rm, least ≤ c v := by
      obtain ⟨v0, l0, rfl⟩ := List.exists_cons_of_ne_nil hne
      obtain ⟨h1, h2⟩ := foldl_min_spec ((v0 :: l0).map c) (c v0)
      have e : least = List.foldl min (c v0) ((v0 :: l0).map c) := rfl
      rw [← e] at h1 h2
      refine ⟨?_, fun v hv => h2 _ (List.mem_cons_of_mem _ (List.mem_map_of_mem hv))⟩
      rcases List.mem_cons.1 h1 with h | h
      · exact ⟨v0, List.mem_cons_self, h.symm⟩
      · obtain ⟨v, hv, e⟩ := List.mem_map.1 h
        exact ⟨v, hv, e⟩
    have hcand : ((rm.zip (rm.map c)).filter fun p => p.2 = least).map Prod.fst = rm.filter fun v => c v = least := by
      clear_value least
      clear hmin hm hc hX hmem hnd hl hne hleast
      induction rm with
      | nil => rfl
      | cons a rm ih =>
        by_cases ha : c a = least
        · simp [ha, ← ih]
        · simp [ha, ← ih]
    set cands := rm.filter fun v => c v = least with hcands
    have hlen : 0 < cands.length := by
      obtain ⟨v, hv, e⟩ := hmin.1
      exact List.length_pos_of_mem (List.mem_filter.2 ⟨hv, by simpa using e⟩)
    have hlt : rnd n % cands.length < cands.length := Nat.mod_lt _ hlen
    set v := cands[rnd n % cands.length] with hv
    have hvc : v ∈ cands := List.getElem_mem _
    obtain ⟨hvrm, hvl⟩ := List.mem_filter.1 hvc
    have hvl : c v = least := by simpa using hvl
    obtain ⟨o, o1, o2, o3⟩ := ih (v :: X) _ (rm.erase v) (inv_step hi (hX v hvrm))
      (by rw [List.length_erase_of_mem hvrm, hl]; rfl) (hnd.erase _)
      (fun w hw => hmem w (List.mem_of_mem_erase hw))
      (fun w hw => by
        rw [List.mem_cons, not_or]
        rw [hnd.mem_erase_iff] at hw
        exact ⟨hw.1, hX w hw.2⟩)
    refine ⟨v :: o, ?_, ?_, ?_⟩
    · rw [loop, if_neg hne]
      simp only [hm, py_ok_bind, ← hleast, hcand, List.getElem?_eq_getElem hlt, ← hv, o1]
      rfl
    · exact (o2.cons v).trans (List.perm_cons_erase hvrm).symm
    · intro pre w post he u hu
      cases pre with
      | nil =>
        simp only [List.nil_append, List.cons.injEq] at he
        obtain ⟨rfl, rfl⟩ := he
        have huo : u ∈ rm := by
          rcases List.mem_cons.1 hu with rfl | hu
          · exact hvrm
          · exact List.mem_of_mem_erase (o2.mem_iff.1 hu)
        simp only [List.reverse_nil, List.nil_append]
        rw [(hc v hvrm).2, (hc u huo).2, hvl]
        exact Nat.mul_le_mul_left _ (hmin.2 u huo)
      | cons p pre =>
        simp only [List.cons_append, List.cons.injEq] at he
        obtain ⟨rfl, he⟩ := he
        have := o3 pre w post he u hu
        simpa using this

theorem specCost_congr {size : V → Nat} {k : Kind} {X Y : List V} (hXY : ∀ v, v ∈ X ↔ v ∈ Y) (v : V) :
    specCost g size k X v = specCost g size k Y v := by
  have h : ElimAdj g X = ElimAdj g Y := by
    funext x y
    exact propext (ElimAdj.congr hXY)
  have h2 : elimNbrs g X = elimNbrs g Y := by
    funext v
    rw [elimNbrs, elimNbrs, h]
  have h3 : missing g X v = missing g Y v := by
    rw [missing, missing, h, h2]
  cases k <;> simp only [specCost, h2, h3]

theorem elimOrdering_ok (hg : g.WF) (ha : g.Acyclic) {sizes : List (V × Nat)} {size : V → Nat} (k : Kind)
    (hs : k = .minWeight → ∀ v ∈ g.nodes, Dict.get sizes v = .ok (size v)) (rnd : Nat → Nat) {rm : List V}
    (hn : rm.Nodup) (hr : ∀ v ∈ rm, v ∈ g.nodes) :
    ∃ o, elimOrdering k rnd g rm sizes = .ok o ∧ o.Perm rm ∧
      ∀ pre v post, o = pre ++ v :: post → ∀ w ∈ v :: post,
        specCost g size k pre v ≤ specCost g size k pre w := by
  obtain ⟨o, h1, h2, h3⟩ := loop_ok hg k hs rnd rm.length [] (moral g) rm (inv_moral hg ha) rfl hn hr (by simp)
  refine ⟨o, ?_, h2, ?_⟩
  · rw [elimOrdering]
    by_cases hk : k = .minWeight
    · have hm : g.nodes.mapM (fun v => Dict.get sizes v) = .ok (g.nodes.map size) := mapM_ok (hs hk)
      simp only [hk, if_true, hm, py_ok_bind]
      rw [← hk]; exact h1
    · simp only [hk, if_false]; exact h1
  · intro pre v post he w hw
    have := h3 pre v post he w hw
    have hc : ∀ v, v ∈ pre.reverse ++ [] ↔ v ∈ pre := by simp
    rwa [specCost_congr hc, specCost_congr hc] at this

end Ordering
end Verif
