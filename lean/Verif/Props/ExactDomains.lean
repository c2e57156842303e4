import Verif.Props.Networks

/-!
# Exactly when a model is constructed, and when its tables agree (C27)

`C27_topological_partial` needs the parents' tables first. Here the order is arbitrary: a dictionary of tables is accepted
exactly when each table fits its node and agrees with the tables that were given before it (`C27_built`). If every node has
a table, the model is consistent exactly when each table agrees also with those given after it (`C27_exact`); so exactly
when the tables are accepted in both orders, or in all orders (`C27_orders`).
-/

set_option linter.unusedSectionVars false
set_option linter.unusedSimpArgs false

namespace Verif.Props
open Verif

section
variable {V S K : Type} [DecidableEq V] [DecidableEq S] [Field K] [LinearOrder K] {vt : VType}
local notation "II" => (storeOf vt : StoreImpl V S (Fl K))

/-- The table is one for the node: the node on the left, its parents on the right. -/
structure Fits (g : DiGraph V) (p : V × Factor II) : Prop where
  node : p.1 ∈ g.nodes
  left : ∀ w, w ∈ p.2.leftVars ↔ w = p.1
  right : ∀ w, w ∈ p.2.rightVars ↔ (w, p.1) ∈ g.edges

/-- What the second table says about the states of the first node is what the table of the first node says. -/
def AgreesWith (q p : V × Factor II) : Prop :=
  ∀ s s', Dict.get? q.2.dom q.1 = some s → Dict.get? p.2.dom q.1 = some s' → SameSet s s'

/-- All tables of the model that mention a variable have the same states for it. -/
def Consistent (m : DagModel (Factor II) V S) : Prop :=
  ∀ v f w f', Dict.get? m.factors v = some (some f) → Dict.get? m.factors w = some (some f') →
    ∀ p ∈ f.dom, ∀ p' ∈ f'.dom, p.1 = p'.1 → SameSet p.2 p'.2

/-- What has been recorded after the tables in `pre`. -/
structure After (g : DiGraph V) (pre : List (V × Factor II)) (m : DagModel (Factor II) V S) : Prop where
  graph : m.graph = g
  check : m.check = true
  factors : ∀ w f, Dict.get? m.factors w = some (some f) ↔ (w, f) ∈ pre
  domains : ∀ w st, Dict.get? m.domains w = some (some st) ↔ ∃ f, (w, f) ∈ pre ∧ Dict.get? f.dom w = some st

theorem After.start (g : DiGraph V) : After g []
    (⟨g, g.nodes.map fun x => (x, none), g.nodes.map fun x => (x, none), true⟩ : DagModel (Factor II) V S) := by
  refine ⟨rfl, rfl, fun w f => ?_, fun w st => ?_⟩ <;> simp only [DagModel.get?_init] <;> split <;> simp

theorem After.accepts {g : DiGraph V} {pre : List (V × Factor II)} {m : DagModel (Factor II) V S} (h : After g pre m)
    {p : V × Factor II} (hn : (Dict.keys p.2.dom).Nodup) :
    m.checkFactor p.1 p.2 = .ok () ↔ Fits g p ∧ ∀ q ∈ pre, AgreesWith q p := by
  rw [DagModel.checkFactor_ok, h.graph]
  constructor
  · rintro ⟨h1, h2, h3, h4⟩
    refine ⟨⟨h1, fun w => ⟨fun hw => by simpa using h3.2 w hw, fun hw => h3.1 w (by simp [hw])⟩, fun w => ?_⟩, ?_⟩
    · rw [← DiGraph.mem_pred]; exact ⟨fun hw => h2.2 w hw, fun hw => h2.1 w hw⟩
    · intro q hq s s' hs hs'
      have := h4 (q.1, s') (Dict.mem_of_get? hs')
      rw [(h.domains q.1 s).2 ⟨q.2, hq, hs⟩] at this
      simpa [DagModel.domFits] using this
  · rintro ⟨⟨h1, h2, h3⟩, h4⟩
    refine ⟨h1, ⟨fun w hw => (h3 w).2 (DiGraph.mem_pred.1 hw), fun w hw => DiGraph.mem_pred.2 ((h3 w).1 hw)⟩,
      ⟨fun w hw => (h2 w).2 (by simpa using hw), fun w hw => by simpa using (h2 w).1 hw⟩, fun d hd => ?_⟩
    rcases hm : Dict.get? m.domains d.1 with _ | _ | st
    · rfl
    · rfl
    · obtain ⟨f, hf, hs⟩ := (h.domains _ _).1 hm
      simpa [DagModel.domFits] using h4 _ hf st d.2 hs (Dict.get?_of_mem hn hd)

theorem After.step {g : DiGraph V} {pre : List (V × Factor II)} {m m' : DagModel (Factor II) V S} (h : After g pre m)
    {p : V × Factor II} (hp : p.1 ∉ Dict.keys pre) (hs : DagModel.SetStep m p.1 p.2 m') : After g (pre ++ [p]) m' := by
  refine ⟨hs.graph.trans h.graph, hs.check.trans h.check, fun w f => ?_, fun w st => ?_⟩
  · rw [hs.factors, Dict.get?_set, List.mem_append, List.mem_singleton]
    split
    · rename_i e
      subst e
      constructor
      · intro e; injection e with e; injection e with e; exact .inr (by rw [← e])
      · rintro (e | e)
        · exact absurd (Dict.mem_keys_of_mem e) hp
        · rw [← e]
    · rename_i e
      rw [h.factors]
      refine ⟨.inl, fun e' => e'.resolve_right fun e' => e ?_⟩
      rw [← e']
  · have hno : ∀ st, Dict.get? m.domains p.1 ≠ some (some st) := fun st e => by
      obtain ⟨f, hf, _⟩ := (h.domains _ _).1 e
      exact hp (Dict.mem_keys_of_mem (p := (p.1, f)) hf)
    rcases hs.domains with ⟨st', e, _⟩ | ⟨st', _, hd, e⟩
    · exact absurd e (hno st')
    · have hd : Dict.get? p.2.dom p.1 = some st' := hd
      rw [e, Dict.get?_set]
      split
      · rename_i e'
        subst e'
        constructor
        · intro e; injection e with e; injection e with e
          exact ⟨p.2, by simp, by rw [← e]; exact hd⟩
        · rintro ⟨f, hf, hfs⟩
          rcases List.mem_append.1 hf with hf | hf
          · exact absurd (Dict.mem_keys_of_mem hf) hp
          · have := List.mem_singleton.1 hf
            rw [← this] at hd
            rw [hfs] at hd
            injection hd with hd
            rw [hd]
      · rename_i e'
        rw [h.domains]
        constructor
        · rintro ⟨f, hf, hfs⟩; exact ⟨f, List.mem_append_left _ hf, hfs⟩
        · rintro ⟨f, hf, hfs⟩
          refine ⟨f, (List.mem_append.1 hf).resolve_right fun hf => e' ?_, hfs⟩
          rw [← List.mem_singleton.1 hf]

theorem After.fold {g : DiGraph V} {post pre : List (V × Factor II)} {m : DagModel (Factor II) V S} (h : After g pre m)
    (hk : (Dict.keys (pre ++ post)).Nodup) (hd : ∀ p ∈ post, DomOk p.2.dom) :
    (∀ m', m.setFactorsDict (post.map fun p => (p.1, some p.2)) = .ok m' → After g (pre ++ post) m') ∧
    ((∃ m', m.setFactorsDict (post.map fun p => (p.1, some p.2)) = .ok m') ↔
      (∀ p ∈ post, Fits g p) ∧ (∀ q ∈ pre, ∀ p ∈ post, AgreesWith q p) ∧ post.Pairwise AgreesWith) := by
  induction post generalizing pre m with
  | nil =>
    refine ⟨fun m' e => ?_, ⟨fun _ => by simp, fun _ => ⟨m, rfl⟩⟩⟩
    injection e with e
    rw [← e, List.append_nil]; exact h
  | cons p post ih =>
    have hdp := hd p (by simp)
    have hp : p.1 ∉ Dict.keys pre := by
      rw [Dict.keys_append, List.nodup_append] at hk
      exact fun hm => hk.2.2 _ hm p.1 (by simp [Dict.keys]) rfl
    have hk' : (Dict.keys ((pre ++ [p]) ++ post)).Nodup := by simpa using hk
    have hacc := h.accepts (p := p) hdp.keys
    have hfold : m.setFactorsDict ((p :: post).map fun p => (p.1, some p.2)) =
        (m.setFactor p.1 (some p.2) >>= fun m1 => m1.setFactorsDict (post.map fun p => (p.1, some p.2))) := by
      simp [DagModel.setFactorsDict]
    rw [hfold]
    cases hset : m.setFactor p.1 (some p.2) with
    | error e =>
      refine ⟨fun m' e' => (by cases e'), ⟨fun ⟨_, e'⟩ => (by cases e'), fun ⟨h1, h2, h3⟩ => ?_⟩⟩
      exfalso
      have hf := h1 p (by simp)
      have hkey : p.1 ∈ Dict.keys p.2.dom := (List.mem_filter.1 ((hf.left p.1).2 rfl)).1
      obtain ⟨m1, e1, _⟩ := C26_accepted (m := m) (f := p.2) (h.graph.symm ▸ hf.node) hf.left
        (fun w => by rw [h.graph]; exact hf.right w)
        (fun d hdm st hst => by
          obtain ⟨f, hfm, hs⟩ := (h.domains _ _).1 hst
          exact h2 _ hfm p (by simp) st d.2 hs (Dict.get?_of_mem hdp.keys hdm)) hkey
      rw [hset] at e1
      cases e1
    | ok m1 =>
      have st := DagModel.setFactor_step hset
      obtain ⟨hf, ha⟩ := hacc.1 (st.checked h.check)
      obtain ⟨i1, i2⟩ := ih (h.step hp st) hk' (fun q hq => hd q (by simp [hq]))
      rw [py_ok_bind]
      refine ⟨fun m' e => by simpa using i1 m' e, ?_⟩
      rw [i2, List.pairwise_cons]
      constructor
      · rintro ⟨h1, h2, h3⟩
        refine ⟨fun x hx => (List.mem_cons.1 hx).elim (fun e => e ▸ hf) (h1 x), fun q hq x hx => ?_, fun x hx => h2 p (by simp) x hx, h3⟩
        rcases List.mem_cons.1 hx with rfl | hx
        · exact ha q hq
        · exact h2 q (by simp [hq]) x hx
      · rintro ⟨h1, h2, h3, h4⟩
        refine ⟨fun x hx => h1 x (by simp [hx]), fun q hq x hx => ?_, h4⟩
        rcases List.mem_append.1 hq with hq | hq
        · exact h2 q hq x (by simp [hx])
        · rw [List.mem_singleton.1 hq]; exact h3 x hx

/-- **C27** a dictionary of tables is accepted exactly when every table fits its node and agrees with those before it. -/
theorem C27_built {g : DiGraph V} (hc : g.hasCycle = false) {fs : List (V × Factor II)} (hk : (Dict.keys fs).Nodup)
    (hd : ∀ p ∈ fs, DomOk p.2.dom) :
    (∃ m : DagModel (Factor II) V S, DagModel.ofDict g (fs.map fun p => (p.1, some p.2)) true = .ok m) ↔
      (∀ p ∈ fs, Fits g p) ∧ fs.Pairwise AgreesWith := by
  have := ((After.start (vt := vt) (S := S) (K := K) g).fold (post := fs) (by simpa using hk) hd).2
  simpa [DagModel.ofDict, DagModel.init, hc] using this

theorem consistent_iff {g : DiGraph V} {fs : List (V × Factor II)} {m : DagModel (Factor II) V S} (hk : (Dict.keys fs).Nodup)
    (hd : ∀ p ∈ fs, DomOk p.2.dom) (hall : ∀ p ∈ fs, ∀ w, (w, p.1) ∈ g.edges → w ∈ Dict.keys fs) (ha : After g fs m)
    (hf : ∀ p ∈ fs, Fits g p) : Consistent m ↔ ∀ q ∈ fs, ∀ p ∈ fs, AgreesWith q p := by
  constructor
  · intro h q hq p hp s s' hs hs'
    exact h q.1 q.2 p.1 p.2 ((ha.factors _ _).2 hq) ((ha.factors _ _).2 hp) (q.1, s) (Dict.mem_of_get? hs) (q.1, s')
      (Dict.mem_of_get? hs') rfl
  · intro h
    have key : ∀ v f, (v, f) ∈ fs → ∀ d ∈ f.dom, ∃ f0 s, (d.1, f0) ∈ fs ∧ Dict.get? f0.dom d.1 = some s ∧ SameSet s d.2 := by
      intro v f hm d hdm
      have hin : d.1 ∈ Dict.keys fs := by
        by_cases hr : d.1 ∈ f.rightVars
        · exact hall _ hm _ (((hf _ hm).right _).1 hr)
        · have : d.1 ∈ f.leftVars := List.mem_filter.2 ⟨Dict.mem_keys_of_mem hdm, by simpa using hr⟩
          rw [((hf _ hm).left _).1 this]
          exact Dict.mem_keys_of_mem hm
      obtain ⟨f0, h0⟩ := Option.isSome_iff_exists.1 (Dict.get?_isSome.2 hin)
      have hm0 := Dict.mem_of_get? h0
      have hkey : d.1 ∈ Dict.keys f0.dom := (List.mem_filter.1 (((hf _ hm0).left d.1).2 rfl)).1
      obtain ⟨s, hs⟩ := Option.isSome_iff_exists.1 (Dict.get?_isSome.2 hkey)
      exact ⟨f0, s, hm0, hs, h _ hm0 _ hm s d.2 hs (Dict.get?_of_mem (hd _ hm).keys hdm)⟩
    intro v f w f' hv hw p hp p' hp' e
    obtain ⟨f0, s, h1, h2, h3⟩ := key v f ((ha.factors _ _).1 hv) p hp
    obtain ⟨f1, s', h1', h2', h3'⟩ := key w f' ((ha.factors _ _).1 hw) p' hp'
    rw [← e] at h1' h2'
    have e0 : f0 = f1 := Option.some.inj ((Dict.get?_of_mem hk h1).symm.trans (Dict.get?_of_mem hk h1'))
    subst e0
    rw [h2] at h2'
    injection h2' with h2'
    subst h2'
    exact SameSet.trans (SameSet.symm h3) h3'

theorem all_iff_pairwise {X : Type} {R : X → X → Prop} {l : List X} (hr : ∀ x ∈ l, R x x) :
    (∀ x ∈ l, ∀ y ∈ l, R x y) ↔ l.Pairwise R ∧ l.Pairwise (fun x y => R y x) := by
  induction l with
  | nil => simp
  | cons a l ih =>
    rw [List.pairwise_cons, List.pairwise_cons]
    have ih := ih fun x hx => hr x (by simp [hx])
    constructor
    · intro h
      have h' := ih.1 fun x hx y hy => h x (by simp [hx]) y (by simp [hy])
      exact ⟨⟨fun y hy => h a (by simp) y (by simp [hy]), h'.1⟩, ⟨fun y hy => h y (by simp [hy]) a (by simp), h'.2⟩⟩
    · rintro ⟨⟨h1, h2⟩, ⟨h3, h4⟩⟩ x hx y hy
      rcases List.mem_cons.1 hx with ex | hx' <;> rcases List.mem_cons.1 hy with ey | hy'
      · rw [ex, ey]; exact hr _ (by simp)
      · rw [ex]; exact h1 y hy'
      · rw [ey]; exact h3 x hx'
      · exact ih.2 ⟨h2, h4⟩ x hx' y hy'

theorem agrees_self {p : V × Factor II} : AgreesWith p p := fun s s' h h' => by
  rw [h] at h'
  injection h' with h'
  rw [h']
  exact ⟨fun _ h => h, fun _ h => h⟩

/-- **C27** exactly: in a model whose construction succeeded all tables have the same set of states for every variable if
and only if each table agrees with the tables that were given after it (`C27_built`: with those before it, it does). Every
parent has a table. -/
theorem C27_exact {g : DiGraph V} {fs : List (V × Factor II)} {m : DagModel (Factor II) V S} (hk : (Dict.keys fs).Nodup)
    (hd : ∀ p ∈ fs, DomOk p.2.dom) (hall : ∀ p ∈ fs, ∀ w, (w, p.1) ∈ g.edges → w ∈ Dict.keys fs)
    (h : DagModel.ofDict g (fs.map fun p => (p.1, some p.2)) true = .ok m) :
    Consistent m ↔ fs.Pairwise (fun p q => AgreesWith q p) := by
  have hc := (DagModel.ofDict_inv h).1
  obtain ⟨hf, hp⟩ := (C27_built hc hk hd).1 ⟨m, h⟩
  have ha : After g fs m := by
    have := ((After.start (vt := vt) (S := S) (K := K) g).fold (post := fs) (by simpa using hk) hd).1 m
      (by simpa [DagModel.ofDict, DagModel.init, hc] using h)
    simpa using this
  rw [consistent_iff hk hd hall ha hf, all_iff_pairwise (R := AgreesWith) fun x _ => agrees_self]
  exact ⟨fun h => h.2, fun h => ⟨hp, h⟩⟩

/-- **C27** so the model is consistent exactly when the tables are accepted in the opposite order, and exactly when they are
accepted in every order. -/
theorem C27_orders {g : DiGraph V} {fs : List (V × Factor II)} {m : DagModel (Factor II) V S} (hk : (Dict.keys fs).Nodup)
    (hd : ∀ p ∈ fs, DomOk p.2.dom) (hall : ∀ p ∈ fs, ∀ w, (w, p.1) ∈ g.edges → w ∈ Dict.keys fs)
    (h : DagModel.ofDict g (fs.map fun p => (p.1, some p.2)) true = .ok m) :
    (Consistent m ↔ ∃ m' : DagModel (Factor II) V S,
      DagModel.ofDict g (fs.reverse.map fun p => (p.1, some p.2)) true = .ok m') ∧
    (Consistent m ↔ ∀ l : List (V × Factor II), l.Perm fs → ∃ m' : DagModel (Factor II) V S,
      DagModel.ofDict g (l.map fun p => (p.1, some p.2)) true = .ok m') := by
  have hc := (DagModel.ofDict_inv h).1
  obtain ⟨hf, hp⟩ := (C27_built hc hk hd).1 ⟨m, h⟩
  have hperm : ∀ l : List (V × Factor II), l.Perm fs → ((∃ m' : DagModel (Factor II) V S,
      DagModel.ofDict g (l.map fun p => (p.1, some p.2)) true = .ok m') ↔ (∀ p ∈ l, Fits g p) ∧ l.Pairwise AgreesWith) :=
    fun l hl => C27_built hc ((hl.map Prod.fst).nodup_iff.2 hk) fun p hp => hd p (hl.mem_iff.1 hp)
  have hrev : Consistent m ↔ ∃ m' : DagModel (Factor II) V S,
      DagModel.ofDict g (fs.reverse.map fun p => (p.1, some p.2)) true = .ok m' := by
    rw [C27_exact hk hd hall h, hperm _ (List.reverse_perm fs), List.pairwise_reverse]
    exact ⟨fun h => ⟨fun p hp => hf p (by simpa using hp), h⟩, fun h => h.2⟩
  refine ⟨hrev, fun hcon l hl => (hperm l hl).2 ⟨fun p hp => hf p (hl.mem_iff.1 hp), ?_⟩,
    fun h => hrev.2 (h _ (List.reverse_perm fs))⟩
  have hall' := (all_iff_pairwise (R := AgreesWith) fun x _ => agrees_self).2 ⟨hp, (C27_exact hk hd hall h).1 hcon⟩
  exact ((all_iff_pairwise (R := AgreesWith) (l := l) fun x _ => agrees_self).1 fun x hx y hy =>
    hall' x (hl.mem_iff.1 hx) y (hl.mem_iff.1 hy)).1

end

/-- `AgreesWith`, evaluated. -/
def agreesB {vt : VType} (q p : Char × Factor (IQ vt)) : Bool :=
  match Dict.get? q.2.dom q.1, Dict.get? p.2.dom q.1 with
  | some s, some s' => decide (SameSet s s')
  | _, _ => true

theorem agreesB_iff {vt : VType} {q p : Char × Factor (IQ vt)} : agreesB q p = true ↔ AgreesWith q p := by
  unfold agreesB AgreesWith
  cases Dict.get? q.2.dom q.1 <;> cases Dict.get? p.2.dom q.1 <;> simp

/-- The tables of `X → Y`, that of the child first, which has the states `st` for `X`; those of the table of `X` are 0, 1. -/
def childFirstRows (st : List Char) : List Row :=
  [([('Y', ['a', 'b']), ('X', st)], [q 1, q 0, q 0, q 1], 'Y'), ([('X', ['0', '1'])], [q 1, q 0], 'X')]

/-- What is evaluated: the conditions of `C27_exact`, that the model is built, and whether the tables agree. -/
def lateCheck (vt : VType) (st : List Char) : Option Bool :=
  match tablesOf vt (childFirstRows st) with
  | .ok fs =>
    let d := ['Y', 'X'].zip fs
    if (Dict.keys d).Nodup ∧ (∀ p ∈ d, DomOk p.2.dom) ∧ (∀ p ∈ d, ∀ e ∈ [('X', 'Y')], e.2 = p.1 → e.1 ∈ Dict.keys d) then
      match (DagModel.ofDict ⟨['X', 'Y'], [('X', 'Y')]⟩ (d.map fun p => (p.1, some p.2)) true :
          Py (DagModel (Factor (IQ vt)) Char Char)) with
      | .ok _ => some (decide (d.Pairwise fun p q => agreesB q p = true))
      | .error _ => none
    else none
  | .error _ => none

theorem lateCheck_spec {vt : VType} {st : List Char} {b : Bool} (h : lateCheck vt st = some b) :
    ∃ (fs : List (Char × Factor (IQ vt))) (m : DagModel (Factor (IQ vt)) Char Char),
      DagModel.ofDict ⟨['X', 'Y'], [('X', 'Y')]⟩ (fs.map fun p => (p.1, some p.2)) true = .ok m ∧ (Consistent m ↔ b = true) := by
  unfold lateCheck at h
  cases ht : tablesOf vt (childFirstRows st) with
  | error e => simp [ht] at h
  | ok fs =>
    simp only [ht] at h
    split at h
    · rename_i hh
      obtain ⟨h1, h2, h3⟩ := hh
      refine ⟨['Y', 'X'].zip fs, ?_⟩
      split at h
      · rename_i m hm
        refine ⟨m, hm, ?_⟩
        rw [C27_exact h1 h2 (fun p hp w hw => h3 p hp (w, p.1) hw rfl) hm]
        injection h with h
        rw [← h, decide_eq_true_iff]
        exact List.Pairwise.iff fun {p q} => agreesB_iff.symm
      · cases h
    · cases h

/-- Both cases occur with the child's table first: the model is built and consistent, or built and not consistent. -/
theorem C27_exact_example (vt : VType) :
    (∃ (fs : List (Char × Factor (IQ vt))) (m : DagModel (Factor (IQ vt)) Char Char),
      DagModel.ofDict ⟨['X', 'Y'], [('X', 'Y')]⟩ (fs.map fun p => (p.1, some p.2)) true = .ok m ∧ Consistent m) ∧
    (∃ (fs : List (Char × Factor (IQ vt))) (m : DagModel (Factor (IQ vt)) Char Char),
      DagModel.ofDict ⟨['X', 'Y'], [('X', 'Y')]⟩ (fs.map fun p => (p.1, some p.2)) true = .ok m ∧ ¬ Consistent m) := by
  have h1 : lateCheck vt ['1', '0'] = some true := by cases vt <;> decide +kernel
  have h2 : lateCheck vt ['2', '3'] = some false := by cases vt <;> decide +kernel
  obtain ⟨fs, m, a, b⟩ := lateCheck_spec h1
  obtain ⟨fs', m', a', b'⟩ := lateCheck_spec h2
  exact ⟨⟨fs, m, a, b.2 rfl⟩, ⟨fs', m', a', fun h => by simpa using b'.1 h⟩⟩

end Verif.Props
