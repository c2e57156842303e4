import Verif.Inference.Arguments
import Verif.Props.Coherent
import Verif.Props.Causal
import Verif.Props.CausalEx
import Verif.Props.Data

/-!
# C119: names and lists of names as arguments

`Means N a T` says which variables an argument is meant to stand for: a name stands for the variable of that name, a
container for its entries.
-/

set_option linter.unusedSectionVars false
set_option linter.unusedSimpArgs false

namespace Verif
namespace Props
open Causal

variable {V S K : Type} [DecidableEq V] [DecidableEq S] [Inhabited S] [Field K] [LinearOrder K] {vt : VType}

local notation "II" => (storeOf vt : StoreImpl V S (Fl K))
local notation "LL" => (labelStoreOf vt : LabelStore V S)

/-- The variables that an argument stands for.  Names are strings. -/
inductive Means (N : NameKind V) : Arg V → List V → Prop
  | name {v : V} (h : N.isStr v = true) : Means N (.one v) [v]
  | names (vs : List V) : Means N (.many vs) vs

theorem Means.asList {N : NameKind V} {a : Arg V} {T : List V} (h : Means N a T) : Verif.asList N a = .ok T := by
  cases h with
  | name h => rw [Verif.asList, if_pos h]
  | names => rfl

/-- **C119** one argument becomes the list of its variables. -/
theorem C119_list {N : NameKind V} {a : Arg V} {T : List V} (h : Means N a T) : asLists N [a] = .ok (.single T) := by
  simp only [asLists, List.length_singleton, gt_iff_lt, lt_self_iff_false, if_false, h.asList]; rfl

/-- **C119** several arguments become the lists of their variables. -/
theorem C119_lists {N : NameKind V} {as : List (Arg V)} {Ts : List (List V)} (h : List.Forall₂ (Means N) as Ts) (hl : 1 < as.length) :
    asLists N as = .ok (.several Ts) := by
  have : ∀ {as : List (Arg V)} {Ts : List (List V)}, List.Forall₂ (Means N) as Ts → as.mapM (Verif.asList N) = .ok Ts := by
    intro as Ts h
    induction h with
    | nil => rfl
    | cons h _ ih => rw [List.mapM_cons, h.asList, py_ok_bind, ih]; rfl
  unfold asLists
  rw [if_pos hl, this h]; rfl

theorem means_pair {N : NameKind V} {a b : Arg V} {T U : List V} (h : Means N a T) (h' : Means N b U) :
    asLists N [a, b] = .ok (.several [T, U]) :=
  C119_lists (.cons h (.cons h' .nil)) (by simp)

/-- **C119** a posterior query gives the posterior of the variables that its target stands for. -/
theorem C119_exact {F : Type} [VEFactor F II] {N : NameKind V} {ch : Choices V} (hch : ch.Ok) (o : VEObj F II) {B : BN V S K}
    (hr : Represents o.model B) (hB : B.Valid) (hn : B.Normalised) {a : Arg V} {T : List V} (ha : Means N a T) {ev : Obs V S}
    (hq : GoodQuery B T ev) {e : Option (Obs V S)} (hev : e.getD [] = ev) (hp : B.marg (Dict.keys ev) (asg ev) ≠ 0) :
    ∃ r, (o.queryArg N ch a none e).2 = .ok r ∧ r.WF ∧ (∀ v, v ∈ r.vars ↔ v ∈ T) ∧ ∀ obs, FullObs r.dom obs → r.getValue obs =
        .ok (.fin (B.marg (T ++ Dict.keys ev) (asg (ev ++ obs)) / B.marg (Dict.keys ev) (asg ev))) := by
  obtain ⟨r, h1, h2, _, h3, _, h4⟩ := C36_exact_posterior hch o hr hB hn hq hev hp
  exact ⟨r, by rw [VEObj.queryArg, C119_list ha]; rw [h1], h2, h3, h4⟩

/-- **C119** a conditional query gives the conditional distribution of the variables that its arguments stand for. -/
theorem C119_conditional {F : Type} [VEFactor F II] {N : NameKind V} {ch : Choices V} (hch : ch.Ok) (o : VEObj F II) {B : BN V S K}
    (hr : Represents o.model B) (hB : B.Valid) (hn : B.Normalised) {a b : Arg V} {T C : List V} (ha : Means N a T) (hb : Means N b C) {ev : Obs V S}
    (hTn : T.Nodup) (hTC : ∀ t ∈ T, t ∉ C) (h0 : T ++ C ≠ []) (hT : ∀ t ∈ T ++ C, t ∈ B.nodes) (he : EvOk B ev)
    (hdis : ∀ t ∈ T ++ C, t ∉ Dict.keys ev) {e : Option (Obs V S)} (hev : e.getD [] = ev) (hp : B.marg (Dict.keys ev) (asg ev) ≠ 0) :
    ∃ r, (o.queryArg N ch a (some b) e).2 = .ok r ∧ r.WF ∧ (∀ v, v ∈ r.leftVars ↔ v ∈ T) ∧ (∀ v, v ∈ r.rightVars ↔ v ∈ C) ∧
      ∀ obs, FullObs r.dom obs → B.marg (C ++ Dict.keys ev) (asg (ev ++ obs)) ≠ 0 → r.getValue obs = .ok (.fin
        (B.marg (T ++ (C ++ Dict.keys ev)) (asg (ev ++ obs)) / B.marg (C ++ Dict.keys ev) (asg (ev ++ obs)))) := by
  obtain ⟨r, h1, h2, _, _, h3, h4, h5⟩ := C39_conditional_any_store hch o hr hB hn hTn hTC h0 hT he hdis hev hp
  exact ⟨r, by rw [VEObj.queryArg]; simp only [means_pair ha hb]; rw [h1], h2, h3, h4, h5⟩

/-- **C119** two targets that stand for the same variables, in any order, get the same answer. -/
theorem C119_same {F : Type} [VEFactor F II] {N : NameKind V} {ch : Choices V} (hch : ch.Ok) (o : VEObj F II) {B : BN V S K}
    (hr : Represents o.model B) (hB : B.Valid) (hn : B.Normalised) {a b : Arg V} {T T' : List V} (ha : Means N a T) (hb : Means N b T')
    (hT : T.Perm T') {ev : Obs V S} (hq : GoodQuery B T ev) (hp : B.marg (Dict.keys ev) (asg ev) ≠ 0) :
    ∃ r s, (o.queryArg N ch a none (some ev)).2 = .ok r ∧ (o.queryArg N ch b none (some ev)).2 = .ok s ∧ SameTable T r s := by
  obtain ⟨r, s, h1, h2, h3⟩ := C114_order hch o hr hB hn hq hT (List.Perm.refl ev) hp
  exact ⟨r, s, by rw [VEObj.queryArg, C119_list ha]; rw [h1], by rw [VEObj.queryArg, C119_list hb]; rw [h2], h3⟩

/-- **C119** a causal query. -/
theorem C119_causal {N : NameKind V} {ch : Choices V} (hch : ch.Ok) {m : SCM II LL} {B : BN V S K} (h : CausalOk m B) {a : Arg V} {T : List V}
    (ha : Means N a T) {d ev : Obs V S} (hT : T ≠ []) (hTn : T.Nodup) (hTv : ∀ t ∈ T, t ∈ B.nodes ∧ t ∉ Dict.keys ev ∧ t ∉ Dict.keys d)
    (hd : EvOk B d) (hev : EvOk B ev) {e : Option (Obs V S)} (hee : e.getD [] = ev) (hp : B.doMarg d (Dict.keys ev) (asg ev) ≠ 0) :
    ∃ m' r, new m = .ok m' ∧ causalQueryArg N ch m' a d e = .ok r ∧ r.WF ∧ (∀ v, v ∈ r.vars ↔ v ∈ T) ∧
      ∀ obs, FullObs r.dom obs → r.getValue obs = .ok (.fin
        (B.doMarg d (T ++ Dict.keys ev) (asg (ev ++ obs)) / B.doMarg d (Dict.keys ev) (asg ev))) := by
  obtain ⟨m', r, h1, h2, h3, _, h4, _, h5⟩ := C42_interventional hch h hT hTn hTv hd hev hee hp
  exact ⟨m', r, h1, by rw [causalQueryArg, C119_list ha]; exact h2, h3, h4, h5⟩

/-- **C119** a counterfactual query: the target may be a name, and one dictionary stands for a list of one. -/
theorem C119_counterfactual (sfx : V → Nat → V) {N : NameKind V} (ch : Choices V) (m : SCM II LL) {a : Arg V} {T : List V} (ha : Means N a T)
    (d : Obs V S) (ds : List (Obs V S)) (e : Option (Obs V S)) (subs : Option (List Nat)) :
    counterfactualQueryArg sfx N ch m a (.many ds) e subs = counterfactualQuery sfx ch m T ds e subs ∧
    counterfactualQueryArg sfx N ch m a (.one d) e subs = counterfactualQuery sfx ch m T [d] e subs := by
  constructor <;> rw [counterfactualQueryArg, C119_list ha] <;> rfl

/-- **C119** relative frequencies. -/
theorem C119_frequency {M : NameKind V} (N : NanName S) (setOrd : List V → List V) {o : Laplace V S} {a : Arg V} {T : List V}
    (ha : Means M a T) {ev : Obs V S} (h : LaplaceOk o T ev) (hpos : 0 < numRows o.data fun r => Agrees r ev) :
    ∃ f : Factor II, o.queryArg M N II setOrd a none ev = .ok f ∧ f.WF ∧ (∀ v, v ∈ f.vars ↔ v ∈ T) ∧
      ∀ b obs, InDom f.dom b → Covers f.dom obs b → f.getValue obs = .ok (.fin
        (((numRows o.data fun r => Agrees r ev ∧ AgreesOn r T b : ℕ) : K) / (numRows o.data fun r => Agrees r ev : ℕ))) := by
  obtain ⟨f, h1, h2, _, h3, _, h4⟩ := C48_frequency (K := K) vt N h hpos
  exact ⟨f, by rw [Laplace.queryArg]; simp only [C119_list ha]; exact h1, h2, h3, h4⟩

/-! ### Functions on graphs -/

theorem barrenLoop_congr {R R' : List V} (h : ∀ v, v ∈ R ↔ v ∈ R') : ∀ (n : ℕ) (g : DiGraph V) (bs : List V),
    DiGraph.barrenLoop R n g bs = DiGraph.barrenLoop R' n g bs
  | 0, _, _ => rfl
  | n + 1, g, bs => by
    have hf : (g.nodes.filter fun x => (g.succ x).length = 0 ∧ x ∉ R) = g.nodes.filter fun x => (g.succ x).length = 0 ∧ x ∉ R' := by
      simp only [h]
    simp only [DiGraph.barrenLoop, hf, barrenLoop_congr h n]

theorem dSeparated_congr (g : DiGraph V) {x x' z z' : List V} (y : List V) (hx : ∀ v, v ∈ x ↔ v ∈ x') (hz : ∀ v, v ∈ z ↔ v ∈ z') :
    g.dSeparated x y z = g.dSeparated x' y z' := by
  have hb : g.barrenRemoval (x ++ y ++ z) = g.barrenRemoval (x' ++ y ++ z') := by
    rw [DiGraph.barrenRemoval, DiGraph.barrenRemoval, DiGraph.barrenInfo, DiGraph.barrenInfo,
      barrenLoop_congr (R' := x' ++ y ++ z') (fun v => by simp only [List.mem_append, hx, hz])]
  have hr : ∀ k : DiGraph V, k.removeOutgoing z = k.removeOutgoing z' := fun k => by
    simp only [DiGraph.removeOutgoing, hz]
  rw [DiGraph.dSeparated, DiGraph.dSeparated, hb, hr]
  congr 1
  rw [Bool.eq_iff_iff]
  simp only [List.any_eq_true, hx]

/-- **C119** only which variables the arguments stand for matters, not their order or repetition. -/
theorem C119_separated {N : NameKind V} (g : DiGraph V) {a b a' b' : Arg V} {T E T' E' : List V} (ha : Means N a T) (hb : Means N b E)
    (ha' : Means N a' T') (hb' : Means N b' E') (hT : ∀ v, v ∈ T ↔ v ∈ T') (hE : ∀ v, v ∈ E ↔ v ∈ E') :
    ∃ l, g.dsepNodesArg N a b = .ok l ∧ g.dsepNodesArg N a' b' = .ok l := by
  refine ⟨g.dsepNodes T E, by rw [DiGraph.dsepNodesArg, means_pair ha hb]; rfl, ?_⟩
  rw [DiGraph.dsepNodesArg, means_pair ha' hb']
  show Except.ok _ = Except.ok _
  congr 1
  rw [DiGraph.dsepNodes, DiGraph.dsepNodes]
  refine List.filter_congr fun v _ => ?_
  exact (dSeparated_congr g [v] hT fun u => by simp only [List.mem_filter, hE]).symm

/-- **C119** `connected` asks for a path from one of the variables. -/
theorem C119_connected {N : NameKind V} (g : DiGraph V) {a : Arg V} {T : List V} (ha : Means N a T) (y : V) :
    g.connectedArg N a y = .ok (decide (y ∈ T ∨ ∃ t ∈ T, y ∈ g.component t)) := by
  rw [DiGraph.connectedArg, C119_list ha, py_ok_bind]
  simp only [DiGraph.connected]
  congr 1
  rw [Bool.eq_iff_iff]
  simp

/-- **C119** (negation) `dcon_nodes` refuses every container of targets, also those for which `dsep_nodes` has an answer. -/
theorem C119_container_refused {N : NameKind V} (g : DiGraph V) (vs : List V) {b : Arg V} {E : List V} (hb : Means N b E) :
    g.dsepNodesArg N (.many vs) b = .ok (g.dsepNodes vs E) ∧ g.dconNodesArg N (.many vs) b = .error .typeError := by
  have h1 : g.dsepNodesArg N (.many vs) b = .ok (g.dsepNodes vs E) := by
    rw [DiGraph.dsepNodesArg, means_pair (.names vs) hb]; rfl
  exact ⟨h1, by rw [DiGraph.dconNodesArg, h1]; rfl⟩

/-- **C119** for a name it lists the other nodes that are not separated. -/
theorem C119_dcon_partial {N : NameKind V} (g : DiGraph V) {v : V} (hv : N.isStr v = true) {b : Arg V} {E : List V} (hb : Means N b E) :
    g.dconNodesArg N (.one v) b = .ok (g.dconNodes v E) := by
  rw [DiGraph.dconNodesArg, DiGraph.dsepNodesArg, means_pair (.name hv) hb]; rfl

/-! ### Names that are not strings -/

/-- **C119** (negation) a variable whose name is not a string cannot be asked for by its name: if the name is not iterable every
query raises `TypeError`, and the object of the query is as before. -/
theorem C119_not_string {F : Type} [VEFactor F II] {N : NameKind V} {v : V} (hv : N.isStr v = false) (hi : N.elems v = none)
    (ch : Choices V) (o : VEObj F II) (e : Option (Obs V S)) (m : SCM II LL) (d : Obs V S) (g : DiGraph V) (b : Arg V) :
    o.queryArg N ch (.one v) none e = (o, .error .typeError) ∧ o.queryArg N ch (.one v) (some b) e = (o, .error .typeError) ∧
    causalQueryArg N ch m (.one v) d e = .error .typeError ∧ g.dsepNodesArg N (.one v) b = .error .typeError ∧
    g.connectedArg N (.one v) v = .error .typeError := by
  have h0 : asList N (.one v) = .error .typeError := by rw [asList, hv, hi]; rfl
  have h1 : asLists N [.one v] = .error .typeError := by simp [asLists, h0]
  have h2 : asLists N [.one v, b] = .error .typeError := by simp [asLists, h0]
  refine ⟨by rw [VEObj.queryArg, h1], by rw [VEObj.queryArg]; simp only [h2], by rw [causalQueryArg, h1]; rfl,
    by rw [DiGraph.dsepNodesArg, h2]; rfl, by rw [DiGraph.connectedArg, h1]; rfl⟩

/-- **C119** (negation) a tuple is taken for the list of its entries, also when a variable has it for a name. -/
theorem C119_tuple {F : Type} [VEFactor F II] {N : NameKind V} {v : V} (hv : N.isStr v = false) {vs : List V} (hi : N.elems v = some vs)
    (ch : Choices V) (o : VEObj F II) (e : Option (Obs V S)) :
    o.queryArg N ch (.one v) none e = o.query ch vs e := by
  have h0 : asList N (.one v) = .ok vs := by rw [asList, hv, hi]; rfl
  have h1 : asLists N [.one v] = .ok (.single vs) := by simp only [asLists, List.length_singleton, gt_iff_lt, lt_self_iff_false, if_false, h0]; rfl
  rw [VEObj.queryArg, h1]

/-- Letters are strings, `(` is the pair of `B` and `C`, and other names are numbers. -/
def kindsEx : NameKind Char := ⟨fun c => c ∈ ['A', 'B', 'C', 'D'], fun c => if c = '(' then some ['C', 'B'] else none⟩

/-- The variables and the values of an answer -/
def shown {vt : VType} (r : Py (Factor (IQ vt))) : Py (List Char × List (Fl ℚ)) := do
  let r ← r
  let l ← r.valuesList
  return (r.vars, l)

/-- `query("C", evidence=…)`, with a list, a pair, and a number -/
def argAsk (vt : VType) (a : Arg Char) (c : Option (Arg Char)) : Py (List Char × List (Fl ℚ)) := do
  let m ← netOf vt gEx rowsEx
  shown ((VEObj.new m : VEObj _ (IQ vt)).queryArg kindsEx chEx a c (some [('D', 'a')])).2

theorem C119_asked (vt : VType) :
    (argAsk vt (.one 'B') none = .ok (['B'], [q (4/7), q (3/7)]) ∧ argAsk vt (.many ['B']) none = .ok (['B'], [q (4/7), q (3/7)])) ∧
    (∃ l, argAsk vt (.one '(') none = .ok l ∧ argAsk vt (.many ['C', 'B']) none = .ok l ∧ l.2.length = 6) ∧
    (∃ l, argAsk vt (.one 'C') (some (.one 'B')) = .ok l ∧ argAsk vt (.many ['C']) (some (.many ['B', 'B'])) = .ok l) ∧
    argAsk vt (.one '5') none = .error .typeError := by
  refine ⟨by cases vt <;> decide +kernel, ⟨(argAsk vt (.many ['C', 'B']) none).toOption.getD ([], []), ?_⟩,
    ⟨(argAsk vt (.many ['C']) (some (.many ['B', 'B']))).toOption.getD ([], []), ?_⟩, by cases vt <;> decide +kernel⟩ <;> cases vt <;> decide +kernel

/-- The functions on the chain `A → B → C → D` -/
theorem C119_asked_graph :
    gEx.dsepNodesArg kindsEx (.one 'A') (.one 'B') = .ok ['C', 'D'] ∧ gEx.dsepNodesArg kindsEx (.many ['A', 'A']) (.many ['B']) = .ok ['C', 'D'] ∧
    gEx.dconNodesArg kindsEx (.one 'A') (.one 'B') = .ok ['B'] ∧ gEx.dconNodesArg kindsEx (.many ['A']) (.one 'B') = .error .typeError ∧
    gEx.connectedArg kindsEx (.one 'A') 'D' = .ok true := by decide +kernel

/-- The hypotheses are met: `C119_exact` and `C119_same` for the targets `B` and `["C", "B"]` of the example network. -/
theorem C119_example (vt : VType) : ∃ m, netOf vt gEx rowsEx = .ok m ∧
    (∃ r s, ((VEObj.new m : VEObj _ (IQ vt)).queryArg kindsEx chEx (.many ['C', 'B']) none (some [('D', 'a')])).2 = .ok r ∧
      ((VEObj.new m : VEObj _ (IQ vt)).queryArg kindsEx chEx (.many ['B', 'C']) none (some [('D', 'a')])).2 = .ok s ∧ SameTable ['C', 'B'] r s) ∧
    Means kindsEx (.one 'B') ['B'] := by
  obtain ⟨m, h1, h2, h3, h4, _, h5, h6⟩ := C114_example vt
  exact ⟨m, h1, C119_same chEx_ok (VEObj.new m : VEObj _ (IQ vt)) h2 h3 h4 (.names _) (.names _) (List.Perm.swap _ _ _) h5 h6, .name (by decide)⟩

end Props
end Verif
