import Verif.IO.UaiText
import Verif.Props.ExNet
import Mathlib.Algebra.BigOperators.Group.List.Basic

/-!
# C63: a Bayesian network written in UAI format and read again
-/

set_option linter.unusedSectionVars false
set_option linter.unusedSimpArgs false

namespace Verif.Props
open Verif.Uai

variable {V S S' K : Type} [DecidableEq V] [DecidableEq S] [DecidableEq S'] [Nonempty S] [Field K] [LinearOrder K]

/-- `varsizes` of a model whose domains are known -/
theorem varsizes_states {F : Type} [FactorLike F V S] {m : DagModel F V S} {B : BN V S K} (hn : m.graph.nodes = B.nodes) (hB : B.nodes.Nodup)
    (hk : Dict.keys m.domains = B.nodes) (hd : ∀ v ∈ B.nodes, Dict.get? m.domains v = some (some (B.states v))) :
    ∃ sizes, m.varsizes = .ok sizes ∧ ∀ v ∈ B.nodes, Dict.get sizes v = .ok (B.states v).length := by
  have hval : ∀ p ∈ m.domains, p.2 = some (B.states p.1) := by
    intro p hp
    have h1 := hd p.1 (hk ▸ Dict.mem_keys_of_mem hp)
    rw [Dict.get?_of_mem (k := p.1) (v := p.2) (hk ▸ hB) hp] at h1
    exact Option.some.inj h1
  have hf : (m.domains.filter fun p => p.1 ∈ m.graph.nodes) = m.domains := by
    rw [List.filter_eq_self]
    intro p hp
    rw [hn, ← hk]
    exact decide_eq_true (Dict.mem_keys_of_mem hp)
  refine ⟨m.domains.map fun p => (p.1, (B.states p.1).length), ?_, fun v hv => ?_⟩
  · rw [DagModel.varsizes, hf]
    refine mapM_ok fun p hp => ?_
    rw [hval p hp]
  · have : Dict.get? (m.domains.map fun p => (p.1, (B.states p.1).length)) v = some (B.states v).length := by
      rw [Dict.get?_map_snd m.domains (fun v _ => (B.states v).length) v, hd v hv]
      rfl
    rw [Dict.get, this]

/-- What has to be written: a connected enough network with names and numbers that survive.

* `connected`: every variable has a parent or a child (the reader builds the graph from the arcs);
* `names`: the new name of a parent is not part of the new name of the child (`V1` is part of `V10`);
* `plain`, `exact`: the entries are printed without exponent, and `float` undoes `str`. -/
structure UaiOk (B : BN V S K) (order : List V) (T : FloatText (Fl K)) : Prop where
  connected : ∀ v ∈ B.nodes, B.parents v ≠ [] ∨ ∃ w ∈ B.nodes, v ∈ B.parents w
  names : ∀ v ∈ B.nodes, ∀ p ∈ B.parents v, ¬ fileName order p <:+: fileName order v
  plain : ∀ v ∈ B.nodes, ∀ a, (∀ u ∈ v :: B.parents v, a u ∈ B.states u) → Plain (T.str (.fin (B.table v a)))
  exact : ∀ v ∈ B.nodes, ∀ a, (∀ u ∈ v :: B.parents v, a u ∈ B.states u) →
    T.float (T.str (.fin (B.table v a))) = .ok (.fin (B.table v a))

theorem mem_tableVals {B : BN V S K} {v : V} {sc : List V} (hn : sc.Nodup) {x : Fl K} (h : x ∈ tableVals B v sc) :
    ∃ a, (∀ u ∈ sc, a u ∈ B.states u) ∧ x = .fin (B.table v a) := by
  obtain ⟨o, ho, rfl⟩ := List.mem_map.1 h
  have hk : (Dict.keys (scopeDom B sc)).Nodup := by rw [scopeDom_keys]; exact hn
  exact ⟨_, fun u hu => (mem_assignmentSpace_fullObs hk ho).inDom _ (List.mem_map.2 ⟨u, hu, rfl⟩), rfl⟩

theorem writeOrder_mem {vs : List V} {varOrder : Option (List V)} {order : List V} (h : writeOrder vs varOrder = .ok order) :
    ∀ v, v ∈ order ↔ v ∈ vs := by
  have key : ∀ o : List V, (if SameSet vs o then (.ok o : Py (List V)) else .error .valueError) = .ok order → ∀ v, v ∈ order ↔ v ∈ vs := by
    intro o h
    split at h
    · rename_i hs
      cases h
      exact fun v => ⟨hs.2 v, hs.1 v⟩
    · cases h
  exact key _ h

/-- **C63** (`bnwrite.py:31-83` `to_uai`, `bnread.py:35-84` `from_uai`) writing a network, with the variables in some order, and
reading the file gives the network with the names `V0`, `V1`, … and the states `0`, `1`, …, with the same arcs and the same tables.

Partial: the statement for all networks is false. A variable without arcs makes the reader fail (`C63_isolated`), so
does an arc between variables with names like `V1` and `V10` (`C63_names`), and a probability printed with an exponent is
read as two numbers (`C63_exponent`). -/
theorem C63_round_trip_partial (vt vt' : VType) {m : DagModel (Factor (storeOf vt : StoreImpl V S (Fl K))) V S} {B : BN V S K} [Nonempty S']
    (hr : Represents m B) (hB : B.Valid) (hk : Dict.keys m.domains = B.nodes)
    (hd : ∀ v ∈ B.nodes, Dict.get? m.domains v = some (some (B.states v)))
    {varOrder : Option (List V)} {order : List V} (hw : writeOrder m.graph.nodes varOrder = .ok order) (hon : order.Nodup)
    {T : FloatText (Fl K)} (hok : UaiOk B order T) {lab : Nat → S'} (hl : Function.Injective lab) :
    ∃ t m' nodes, toUai T m varOrder = .ok t ∧ fromUai (storeOf vt') lab T t = .ok m' ∧
      nodes.Perm (B.nodes.map (fileName order)) ∧ Represents m' (B.coded order lab nodes) := by
  have hI := storeOf_lawful (V := V) (S := S) (α := Fl K) vt
  have hI' := storeOf_lawful (V := Str) (S := S') (α := Fl K) vt'
  have ho : order.Perm B.nodes := by
    refine (List.perm_ext_iff_of_nodup hon hB.nodes).2 fun v => ?_
    rw [← hr.nodes]; exact writeOrder_mem hw v
  have hmo : ∀ v, v ∈ order ↔ v ∈ B.nodes := fun v => ho.mem_iff
  -- parents and scopes
  have hpar := fun v (hv : v ∈ B.nodes) => EM.parents_ok hB hr.nodes hr.parents hv
  choose! P hP1 hP2 hP3 using hpar
  set Q : V → List V := fun v => (P v).reverse with hQ
  have hQn : ∀ v ∈ B.nodes, (v :: Q v).Nodup := by
    intro v hv
    have := hP2 v hv
    rw [List.nodup_cons] at this ⊢
    exact ⟨by simpa [hQ] using this.1, List.nodup_reverse.2 this.2⟩
  have hQm : ∀ v ∈ B.nodes, ∀ w, w ∈ Q v ↔ w ∈ B.parents v := fun v hv w => by
    rw [hQ]; simp only [List.mem_reverse]; exact hP3 v hv w
  have hQs : ∀ v ∈ B.nodes, (Q v ++ [v]).Nodup := fun v hv => (List.perm_append_singleton v (Q v)).nodup_iff.2 (hQn v hv)
  have hQv : ∀ v ∈ B.nodes, ∀ a : V → S, (∀ u ∈ Q v ++ [v], a u ∈ B.states u) → ∀ u ∈ v :: B.parents v, a u ∈ B.states u := by
    intro v hv a ha u hu
    refine ha u ?_
    rcases List.mem_cons.1 hu with rfl | hu
    · simp
    · exact List.mem_append.2 (.inl ((hQm v hv u).2 hu))
  -- writing
  obtain ⟨sizes, s1, s2⟩ := varsizes_states (F := Factor (storeOf vt : StoreImpl V S (Fl K))) hr.nodes hB.nodes hk hd
  have hcards : order.mapM (fun v => Dict.get sizes v) = .ok (order.map fun v => (B.states v).length) :=
    mapM_ok fun v hv => s2 v ((hmo v).1 hv)
  have hscopes : (order.mapM fun v => do
      let sc ← scope m v
      return (v, sc)) = (.ok (order.map fun v => (v, Q v ++ [v])) : Py _) := by
    refine mapM_ok fun v hv => ?_
    rw [scope, hP1 v ((hmo v).1 hv)]
    rfl
  have hvals : (order.map fun v => (v, Q v ++ [v])).mapM (fun p => tableOf m p.1 p.2) =
      .ok (order.map fun v => tableVals B v (Q v ++ [v])) := by
    rw [List.mapM_map]
    refine mapM_ok fun v hv => ?_
    have hv := (hmo v).1 hv
    obtain ⟨f, g, g1, g2, g3⟩ := hr.table v hv
    cases g2
    have hval := valuesArray_table hI g3 (sc := Q v ++ [v]) (by simp)
      ((List.perm_append_singleton v (Q v)).nodup_iff.2 (hQn v hv)) fun w => by
        rw [g3.vars w, List.mem_append, List.mem_singleton, hQm v hv, or_comm]
    simp only [Function.comp]
    rw [tableOf, Dict.get, g1]
    simp only [py_ok_bind]
    rw [hval]
    rfl
  have hnf : m.factors.length = order.length := by
    rw [ho.length_eq, ← hr.nodes, ← hr.keys, Dict.keys, List.length_map]
  have hwrite : toUai T m varOrder = .ok (textOf "BAYES".toList order Q (fun v => (B.states v).length)
      fun v => (tableVals B v (Q v ++ [v])).map T.str) := by
    rw [toUai, hw, py_ok_bind, s1, py_ok_bind, hcards, py_ok_bind, hscopes, py_ok_bind, hvals, py_ok_bind, hnf, textOf, List.map_map,
      List.map_map]
    rfl
  -- reading
  obtain ⟨h, s, r1, r2, r3, r4, r5⟩ := read_text (T := T) takeNum_lexer (label := "BAYES".toList) (by decide) hon (Q := Q)
    (k := fun v => (B.states v).length) (toks := fun v => (tableVals B v (Q v ++ [v])).map T.str) (xs := fun v => tableVals B v (Q v ++ [v])) lab
    (fun v hv w hw => (hmo w).2 (hB.parents v ((hmo v).1 hv) w ((hQm v ((hmo v).1 hv) w).1 hw)))
    (fun v hv => hQn v ((hmo v).1 hv))
    (by
      intro v hv
      have hv := (hmo v).1 hv
      rcases hok.connected v hv with h | ⟨w, hw, h⟩
      · left
        obtain ⟨p, l, h⟩ := List.exists_cons_of_ne_nil h
        exact List.ne_nil_of_mem ((hQm v hv p).2 (by rw [h]; exact List.mem_cons_self))
      · exact .inr ⟨w, (hmo w).2 hw, (hQm w hw v).2 h⟩)
    (by
      intro v hv t ht
      have hv := (hmo v).1 hv
      obtain ⟨x, hx, rfl⟩ := List.mem_map.1 ht
      obtain ⟨a, ha, rfl⟩ := mem_tableVals (hQs v hv) hx
      exact hok.plain v hv a (hQv v hv a ha))
    (by
      intro v hv
      have hv := (hmo v).1 hv
      rw [List.forall₂_map_left_iff, List.forall₂_same]
      intro x hx
      obtain ⟨a, ha, rfl⟩ := mem_tableVals (hQs v hv) hx
      exact hok.exact v hv a (hQv v hv a ha))
  have hne : Nonempty (Factor (storeOf vt' : StoreImpl Str S' (Fl K))) := by
    obtain ⟨f, _⟩ := Factor.make_ok hI' (left := none) (right := none) (values := [0]) (d := []) (r := [])
        ⟨List.nodup_nil, by simp, by simp⟩ rfl rfl
    exact ⟨f⟩
  have hfac : ∀ v ∈ order, ∃ f : Factor (storeOf vt' : StoreImpl Str S' (Fl K)),
      makeLeftStr (storeOf vt') (fileName order v) (fileDom order Q (fun v => (B.states v).length) lab v) (tableVals B v (Q v ++ [v])) = .ok f ∧
        IsTable (B.coded order lab h.graph.nodes) (fileName order v) f := by
    intro v hvo
    have hv := (hmo v).1 hvo
    exact makeLeftStr_ok (nodes := h.graph.nodes) hI' hB ho hl hv (hQn v hv) (hQm v hv) (hok.names v hv)
  choose! F hF1 hF2 using hfac
  have hB' : (B.coded order lab h.graph.nodes).Valid := hB.coded ho hl r3
  obtain ⟨g1, g2⟩ := DagModel.ofDict_factors (I := (storeOf vt' : StoreImpl Str S' (Fl K))) (l := order.map fun v => (fileName order v, F v))
    hB' r2 rfl (fun w hw p => by
      obtain ⟨v, hv, rfl⟩ := List.mem_map.1 (r3.mem_iff.1 hw)
      rw [BN.coded_parents hv, ← DiGraph.mem_pred, r4 v hv, List.mem_map, List.mem_map]
      exact exists_congr fun u => and_congr_left fun _ => (hQm v ((hmo v).1 hv) u).symm)
    (by
      have : Dict.keys (order.map fun v => (fileName order v, F v)) = order.map (fileName order) := by
        simp [Dict.keys, List.map_map, Function.comp_def]
      rw [this]
      exact r3.symm)
    (by
      intro p hp
      obtain ⟨v, hv, rfl⟩ := List.mem_map.1 hp
      exact hF2 v hv) true
  refine ⟨_, _, h.graph.nodes, hwrite, ?_, r3.trans (ho.map _), g2⟩
  rw [fromUai, checkLabel_textOf (by decide), py_ok_bind, r1]
  simp only [py_ok_bind]
  rw [r5 _ F hF1]
  simp only [py_ok_bind]
  rw [List.map_map] at g1
  exact g1

/-- **C63** the joint distribution of the network in the file is the one of the network that was written. -/
theorem C63_joint {B : BN V S K} {order : List V} (ho : order.Perm B.nodes) {lab : Nat → S'} {nodes : List Str}
    (hn : nodes.Perm (B.nodes.map (fileName order))) (x : Str → S') :
    (B.coded order lab nodes).joint x = B.joint (decoded B order lab x) := by
  show (nodes.map fun w => (B.coded order lab nodes).table w x).prod = _
  rw [(hn.map _).prod_eq, List.map_map, BN.joint]
  congr 1
  refine List.map_congr_left fun v hv => ?_
  exact BN.coded_table (ho.mem_iff.2 hv) x

/-- **C63** up to ten variables, the condition on the names holds. -/
theorem C63_names_small {B : BN V S K} (hB : B.Valid) {order : List V} (ho : order.Perm B.nodes) (hs : order.length ≤ 10) :
    ∀ v ∈ B.nodes, ∀ p ∈ B.parents v, ¬ fileName order p <:+: fileName order v := by
  have hlen : ∀ i < 10, (varName i).length = 2 := by decide
  intro v hv p hp hi
  have hpo : p ∈ order := ho.mem_iff.2 (hB.parents v hv p hp)
  have h1 := List.idxOf_lt_length_of_mem hpo
  have h2 := List.idxOf_lt_length_of_mem (ho.mem_iff.2 hv)
  have : fileName order p = fileName order v :=
    hi.eq_of_length (by rw [fileName, fileName, hlen _ (by omega), hlen _ (by omega)])
  have := fileName_inj hpo this
  subst this
  exact hB.acyclic p (.single ⟨hv, hp⟩)

/-! ### Decimal numbers in python notation -/

/-- Number of decimals needed, up to 15 -/
def places (x : ℚ) : Nat := ((List.range 16).find? fun k => (x * 10 ^ k).den = 1).getD 15

def padLeft (k : Nat) (t : Str) : Str := List.replicate (k - t.length) '0' ++ t

/-- `str` of a float that has at most 15 decimals: positional from `0.0001` on, otherwise with an exponent -/
def pyFloatStr (x : ℚ) : Str :=
  if x < 0 then ['n', 'e', 'g'] else
  if x = 0 ∨ 1 / 10000 ≤ x then
    let k := max 1 (places x)
    let m := (x * 10 ^ k).num.toNat
    natText (m / 10 ^ k) ++ '.' :: padLeft k (natText (m % 10 ^ k))
  else
    let k := places x
    let ds := natText (x * 10 ^ k).num.toNat
    ds.take 1 ++ (if ds.length > 1 then '.' :: ds.drop 1 else []) ++ ['e', '-'] ++ padLeft 2 (natText (k + 1 - ds.length))

/-- `float` of a number without exponent -/
def pyFloatRead (t : Str) : Py ℚ :=
  let (neg, r) := match t with
    | '-' :: r => (true, r)
    | '+' :: r => (false, r)
    | r => (false, r)
  let d1 := r.takeWhile Char.isDigit
  let d2 := (r.dropWhile Char.isDigit).drop 1
  let ok := d2.all Char.isDigit && (d1 ++ d2 ≠ []) && ((r.dropWhile Char.isDigit).head?.all (· == '.'))
  if ok then
    let x : ℚ := (Nat.ofDigitChars 10 (d1 ++ d2) 0 : ℚ) / 10 ^ d2.length
    .ok (if neg then -x else x)
  else .error .valueError

/-- `str` and `float` on the values of tables -/
def pyFloats : FloatText (Fl ℚ) where
  str
    | .fin x => pyFloatStr x
    | _ => ['n', 'a', 'n']
  float t := do
    let x ← pyFloatRead t
    return .fin x

example : pyFloatStr (1/4) = "0.25".toList ∧ pyFloatStr 1 = "1.0".toList ∧ pyFloatStr (1/100000) = "1e-05".toList ∧
    pyFloatStr (123/10000000) = "1.23e-05".toList ∧ pyFloatStr (1/1000) = "0.001".toList := by decide +kernel
example : pyFloatRead "0.25".toList = .ok (1/4) ∧ pyFloatRead "-05".toList = .ok (-5) ∧ pyFloatRead "0.2.5".toList = .error .valueError := by
  decide +kernel

/-- Positional notation, as a test -/
def isPlain (t : Str) : Bool :=
  let r := if t.head? = some '-' then t.drop 1 else t
  let d1 := r.takeWhile Char.isDigit
  let r1 := r.dropWhile Char.isDigit
  d1 ≠ [] && (r1 == [] || (r1.head? == some '.' && r1.drop 1 ≠ [] && (r1.drop 1).all Char.isDigit))

theorem isPlain_spec {t : Str} (h : isPlain t = true) : Plain t := by
  rw [isPlain] at h
  simp only [Bool.and_eq_true, Bool.or_eq_true, decide_eq_true_eq, beq_iff_eq, ne_eq, List.all_eq_true] at h
  set r := if t.head? = some '-' then t.drop 1 else t with hr
  obtain ⟨h1, h2⟩ := h
  refine ⟨if t.head? = some '-' then ['-'] else [], r.takeWhile Char.isDigit, r.dropWhile Char.isDigit, ?_, ?_, h1, ?_, ?_⟩
  · rw [List.takeWhile_append_dropWhile, hr]
    split
    · rename_i hh
      cases t with
      | nil => cases hh
      | cons c t => simp only [List.head?_cons, Option.some.injEq] at hh; subst hh; rfl
    · rfl
  · split <;> simp
  · exact fun c hc => List.all_eq_true.1 List.all_takeWhile c hc
  · rcases h2 with h2 | ⟨⟨h2, h3⟩, h4⟩
    · exact .inl h2
    · right
      generalize r.dropWhile Char.isDigit = r1 at h2 h3 h4
      cases r1 with
      | nil => exact absurd h2 (by simp)
      | cons c r1 =>
        simp only [List.head?_cons, Option.some.injEq] at h2
        subst h2
        exact ⟨r1, rfl, h3, h4⟩

/-- What is evaluated to see that the entries can be written -/
def printable {V : Type} [DecidableEq V] (B : BN V Char ℚ) : Bool :=
  B.nodes.all fun v => (assignmentSpace (scopeDom B (v :: B.parents v))).all fun o =>
    isPlain (pyFloats.str (.fin (B.table v (over o fun _ => 'a')))) &&
      decide (pyFloats.float (pyFloats.str (.fin (B.table v (over o fun _ => 'a')))) = .ok (.fin (B.table v (over o fun _ => 'a'))))

theorem printable_spec {V : Type} [DecidableEq V] {B : BN V Char ℚ} (hB : B.Valid) (h : printable B = true) :
    ∀ v ∈ B.nodes, ∀ a, (∀ u ∈ v :: B.parents v, a u ∈ B.states u) → Plain (pyFloats.str (.fin (B.table v a))) ∧
      pyFloats.float (pyFloats.str (.fin (B.table v a))) = .ok (.fin (B.table v a)) := by
  intro v hv a ha
  rw [printable, List.all_eq_true] at h
  have h := h v hv
  rw [List.all_eq_true] at h
  have hin : InDom (scopeDom B (v :: B.parents v)) a := by
    intro p hp
    obtain ⟨u, hu, rfl⟩ := List.mem_map.1 hp
    exact ha u hu
  have hm := List.mem_of_getElem? (assignmentSpace_getElem? hin)
  have := h _ hm
  have e : B.table v (over ((scopeDom B (v :: B.parents v)).map fun p => (p.1, a p.1)) fun _ => 'a') = B.table v a := by
    refine hB.scope v hv _ _ fun u hu => ?_
    exact over_of_get? (covers_map (scopeDom B (v :: B.parents v)) a (e := scopeDom B (v :: B.parents v)) (fun v h => h) u
      (by rw [scopeDom_keys]; exact hu))
  rw [e, Bool.and_eq_true, decide_eq_true_eq] at this
  exact ⟨isPlain_spec this.1, this.2⟩

/-! ### Examples -/

/-- The chain with tables of decimal numbers -/
def rowsTen : List Row :=
  [([('A', ['a', 'b'])], [q (1/2), q (1/2)], 'A'),
   ([('B', ['a', 'b']), ('A', ['a', 'b'])], [q 1, q (1/4), q 0, q (3/4)], 'B'),
   ([('C', ['c', 'd', 'e']), ('B', ['a', 'b'])], [q (3/10), q (1/5), q (3/10), q (3/10), q (2/5), q (1/2)], 'C'),
   ([('C', ['c', 'd', 'e']), ('D', ['a', 'b'])], [q (1/5), q (4/5), q (2/5), q (3/5), q 1, q 0], 'D')]

theorem netCheck_ten (vt : VType) : netCheck vt gEx rowsTen = true := by
  cases vt <;> decide +kernel

/-- The rest of what is needed for writing, evaluated -/
def uaiCheck (vt : VType) (g : DiGraph Char) (rows : List Row) (varOrder : Option (List Char)) (order : List Char) : Bool :=
  match netOf vt g rows with
  | .ok m =>
    let B : BN Char Char ℚ := BN.ofModel (IQ vt) m
    printable B && decide (Dict.keys m.domains = B.nodes) && B.nodes.all (fun v => decide (Dict.get? m.domains v = some (some (B.states v)))) &&
      B.nodes.all (fun v => decide (B.parents v ≠ []) || B.nodes.any fun w => v ∈ B.parents w) &&
      decide (writeOrder m.graph.nodes varOrder = .ok order ∧ order.Nodup ∧ order.length ≤ 10)
  | .error _ => false

theorem uaiCheck_ten (vt : VType) : uaiCheck vt gEx rowsTen (some ['D', 'B', 'A', 'C']) ['D', 'B', 'A', 'C'] = true := by
  cases vt <;> decide +kernel

/-- The hypotheses of `C63_round_trip_partial` can be met: the chain with the variables in another order. -/
example (vt vt' : VType) : ∃ (m : DagModel (Factor (IQ vt)) Char Char) (B : BN Char Char ℚ), Represents m B ∧ B.Valid ∧
    ∃ t m' nodes, toUai pyFloats m (some ['D', 'B', 'A', 'C']) = .ok t ∧
      fromUai (storeOf vt' : StoreImpl Str Nat (Fl ℚ)) id pyFloats t = .ok m' ∧
      nodes.Perm (B.nodes.map (fileName ['D', 'B', 'A', 'C'])) ∧ Represents m' (B.coded ['D', 'B', 'A', 'C'] id nodes) := by
  obtain ⟨m, h1, h2, h3, h4, h5, h6⟩ := netOf_spec (by decide) (netCheck_ten vt)
  have hc := uaiCheck_ten vt
  rw [uaiCheck, h1] at hc
  simp only [Bool.and_eq_true, decide_eq_true_eq, List.all_eq_true, Bool.or_eq_true, List.any_eq_true] at hc
  obtain ⟨⟨⟨⟨c1, c2⟩, c3⟩, c4⟩, c5, c6, c7⟩ := hc
  have ho : ['D', 'B', 'A', 'C'].Perm (BN.ofModel (IQ vt) m : BN Char Char ℚ).nodes :=
    (List.perm_ext_iff_of_nodup c6 h4.nodes).2 fun v => writeOrder_mem c5 v
  refine ⟨m, BN.ofModel (IQ vt) m, h3, h4, C63_round_trip_partial vt vt' h3 h4 c2 c3 c5 c6 ⟨c4, C63_names_small h4 ho c7, ?_, ?_⟩
    (fun _ _ h => h)⟩
  · exact fun v hv a ha => (printable_spec h4 c1 v hv a ha).1
  · exact fun v hv a ha => (printable_spec h4 c1 v hv a ha).2

/-- The text of `A → B` -/
example : ∀ vt, (do
    let m ← netOf vt ⟨['A', 'B'], [('A', 'B')]⟩ [([('A', ['a', 'b'])], [q (1/2), q (1/2)], 'A'),
      ([('B', ['a', 'b', 'c']), ('A', ['a', 'b'])], [q 1, q (1/4), q 0, q (3/4), q 0, q 0], 'B')]
    toUai pyFloats m none) =
    .ok "BAYES\n2\n2 3\n2\n1\t0\n2\t0 1\n\n2\t0.5 0.5\n6\t1.0 0.0 0.0 0.25 0.75 0.0\n".toList := by
  intro vt; cases vt <;> decide +kernel

/-! ### What does not survive -/

/-- Writes a network and reads the file into the default store: the names of the nodes and the values of the tables -/
def thereAndBack (vt : VType) (g : DiGraph Char) (rows : List Row) : Py (List Str × List (List (Fl ℚ))) := do
  let m ← netOf vt g rows
  let t ← toUai pyFloats m none
  let m' ← fromUai (storeOf .numpy : StoreImpl Str Nat (Fl ℚ)) id pyFloats t
  let vs ← m'.factors.mapM fun p => match p.2 with
    | some f => f.valuesList
    | none => .error .attributeError
  return (m'.graph.nodes, vs)

/-- **C63** a variable without arcs is written but not read: `dag.predecessors` fails. -/
theorem C63_isolated : ∀ vt, thereAndBack vt ⟨['A', 'B', 'C'], [('A', 'B')]⟩
    [([('A', ['a', 'b'])], [q (1/2), q (1/2)], 'A'), ([('A', ['a', 'b']), ('B', ['a', 'b'])], [q 1, q 0, q (1/4), q (3/4)], 'B'),
      ([('C', ['a', 'b'])], [q (1/2), q (1/2)], 'C')] = .error .networkx := by
  intro vt; cases vt <;> decide +kernel

/-- A binary variable without parents -/
def rootRow (v : Char) : Row := ([(v, ['a', 'b'])], [q (1/2), q (1/2)], v)
/-- A binary variable with a parent -/
def childRow (p v : Char) : Row := ([(p, ['a', 'b']), (v, ['a', 'b'])], [q 1, q 0, q (1/4), q (3/4)], v)

/-- **C63** eleven variables with an arc from the second to the last: `V1` is part of the string `V10`, so it does not become a
variable on the right and the network is refused. -/
theorem C63_names : ∀ vt, thereAndBack vt ⟨['A', 'B', 'C', 'D', 'E', 'F', 'G', 'H', 'I', 'J', 'K'],
      [('A', 'C'), ('A', 'D'), ('A', 'E'), ('A', 'F'), ('A', 'G'), ('A', 'H'), ('A', 'I'), ('A', 'J'), ('B', 'K')]⟩
    ([rootRow 'A', rootRow 'B'] ++ ['C', 'D', 'E', 'F', 'G', 'H', 'I', 'J'].map (childRow 'A') ++ [childRow 'B' 'K']) =
      .error .valueError := by
  intro vt; cases vt <;> decide +kernel

/-- **C63** a probability of 1/100000 is printed `1e-05` and read as the two numbers 1 and -5: here the table of `B` comes
back as other numbers without any error. -/
theorem C63_exponent : ∀ vt, thereAndBack vt ⟨['A', 'B'], [('A', 'B')]⟩
    [rootRow 'A', ([('A', ['a', 'b']), ('B', ['a', 'b'])], [q (1/2), q (1/2), q (1/100000), q (99999/100000)], 'B')] =
      .ok ([varName 0, varName 1], [[q (1/2), q (1/2)], [q (1/2), q (1/2), q 1, q (-5)]]) := by
  intro vt; cases vt <;> decide +kernel

/-- The graph of a text and the table of its second variable -/
def readBack (t : String) : Py (List (Str × Str) × List (Fl ℚ)) := do
  let m ← fromUai (storeOf .numpy : StoreImpl Str Nat (Fl ℚ)) id pyFloats t.toList
  match Dict.get? m.factors (varName 1) with
  | some (some f) => do
    let vs ← f.valuesList
    return (m.graph.edges, vs)
  | _ => .error .keyError

/-- **C63** the indices in the lists of variables: a negative one counts from the end, so the first two texts are the same network;
one out of range is an `IndexError`, in either direction; a list that ends with another variable than its own is refused. -/
theorem C63_indices :
    readBack "BAYES\n2\n2 2\n2\n1\t0\n2\t0 1\n\n2\t0.5 0.5\n4\t1.0 0.0 0.25 0.75\n" = .ok ([(varName 0, varName 1)], [q 1, q 0, q (1/4), q (3/4)]) ∧
    readBack "BAYES\n2\n2 2\n2\n1\t0\n2\t-2 -1\n\n2\t0.5 0.5\n4\t1.0 0.0 0.25 0.75\n" = .ok ([(varName 0, varName 1)], [q 1, q 0, q (1/4), q (3/4)]) ∧
    readBack "BAYES\n2\n2 2\n2\n1\t0\n2\t-3 1\n\n2\t0.5 0.5\n4\t1.0 0.0 0.25 0.75\n" = .error .indexError ∧
    readBack "BAYES\n2\n2 2\n2\n1\t0\n2\t2 1\n\n2\t0.5 0.5\n4\t1.0 0.0 0.25 0.75\n" = .error .indexError ∧
    readBack "BAYES\n2\n2 2\n2\n1\t0\n2\t1 0\n\n2\t0.5 0.5\n4\t1.0 0.0 0.25 0.75\n" = .error .assertion := by
  refine ⟨?_, ?_, ?_, ?_, ?_⟩ <;> decide +kernel

end Verif.Props
