import Verif.IO.UaiScmLemmas
import Verif.Props.Uai
import Verif.Props.ExScm
import Mathlib.Data.List.TakeWhile

/-!
# C64: a structural causal model written in UAI format and read again
-/

set_option linter.unusedSectionVars false
set_option linter.unusedSimpArgs false

namespace Verif.Props
open Verif.Uai

variable {V S S' K : Type} [DecidableEq V] [DecidableEq S] [DecidableEq S'] [Inhabited S] [Inhabited S'] [Field K] [LinearOrder K]
  [IsStrictOrderedRing K]

/-- What has to be written.

* `connected`, `names`: as in `UaiOk`;
* `plain`, `exact`: as in `UaiOk`, for the exogenous variables;
* `inner`: the endogenous variables are the ones with parents. -/
structure UaiScmOk (B : BN V S K) (endo order : List V) (T : FloatText (Fl K)) : Prop where
  connected : ∀ v ∈ B.nodes, B.parents v ≠ [] ∨ ∃ w ∈ B.nodes, v ∈ B.parents w
  names : ∀ v ∈ B.nodes, ∀ p ∈ B.parents v, ¬ fileName order p <:+: fileName order v
  plain : ∀ v ∈ B.nodes, v ∉ endo → ∀ a, (∀ u ∈ v :: B.parents v, a u ∈ B.states u) → Plain (T.str (.fin (B.table v a)))
  exact : ∀ v ∈ B.nodes, v ∉ endo → ∀ a, (∀ u ∈ v :: B.parents v, a u ∈ B.states u) →
    T.float (T.str (.fin (B.table v a))) = .ok (.fin (B.table v a))
  inner : ∀ v ∈ B.nodes, v ∈ endo ↔ B.parents v ≠ []
  nodes : ∀ v ∈ endo, v ∈ B.nodes

/-- **C64** (`scmwrite.py:16-17` `to_uai`, `scmread.py:23-77` `from_uai`) writing a structural causal model and reading the file gives
the model with the names `V0`, `V1`, … and the states `0`, `1`, …, with the same arcs, the same endogenous variables, the
same equations and the same distributions.

`ofNat`, `asInt`: numpy integers as states and back; `ofFloat`: the number `i.0` is equal to the state `i`.

Partial: as for networks (`C63_round_trip_partial`), and the endogenous variables have to be the ones with parents
(`C64_constant`) and the states of deterministic factors that were not cast have to be the integers `0`, `1`, … (`C64_labels`). -/
theorem C64_round_trip_partial (vt vt' : VType) {m : SCM (storeOf vt : StoreImpl V S (Fl K)) (labelStoreOf vt : LabelStore V S)} {B : BN V S K}
    (hr : m.Rep B) (hB : B.Valid) (hN : B.Normalised) (hk : Dict.keys m.base.domains = B.nodes)
    (hd : ∀ v ∈ B.nodes, Dict.get? m.base.domains v = some (some (B.states v)))
    {varOrder : Option (List V)} {order : List V} (hw : writeOrder (m.endogenous ++ m.exogenous) varOrder = .ok order) (hon : order.Nodup)
    {T : FloatText (Fl K)} (hok : UaiScmOk B m.endogenous order T)
    (hT : ∀ i : Nat, T.float (natText i) = .ok (.fin i))
    {asInt : S → Py Int} {ofNat : Nat → S} (hint : ∀ v ∈ m.endogenous, ∀ i < (B.states v).length, asInt (ofNat i) = .ok (i : Int))
    (hdet : ∀ v ∈ m.endogenous, ∀ f, Dict.get? m.base.factors v = some (some f) → f.isDet = true →
      ∀ s ∈ B.states v, asInt s = .ok (((B.states v).idxOf s : Nat) : Int))
    (hexo : ∀ v ∈ B.nodes, v ∉ m.endogenous → ∀ f, Dict.get? m.base.factors v = some (some f) → f.isDet = false)
    {lab : Nat → S'} (hl : Function.Injective lab) {ofFloat : Fl K → S'} (hof : ∀ i : Nat, ofFloat (.fin i) = lab i) :
    ∃ t m' nodes, toUaiScm T asInt ofNat m varOrder = .ok t ∧
      fromUaiScm (storeOf vt') (labelStoreOf vt') lab ofFloat T t = .ok m' ∧
      nodes.Perm (B.nodes.map (fileName order)) ∧ m'.Rep (B.coded order lab nodes) ∧
      ∀ v ∈ B.nodes, fileName order v ∈ m'.endogenous ↔ v ∈ m.endogenous := by
  have hI := storeOf_lawful (V := V) (S := S) (α := Fl K) vt
  have hI' := storeOf_lawful (V := Str) (S := S') (α := Fl K) vt'
  have hmo : ∀ v, v ∈ order ↔ v ∈ B.nodes := by
    intro v
    rw [writeOrder_mem hw v, List.mem_append, SCM.exogenous, List.mem_filter, hr.nodes]
    constructor
    · rintro (h | h)
      · exact hok.nodes v h
      · exact h.1
    · intro h
      by_cases e : v ∈ m.endogenous
      · exact .inl e
      · exact .inr ⟨h, by simpa using e⟩
  have ho : order.Perm B.nodes := (List.perm_ext_iff_of_nodup hon hB.nodes).2 hmo
  -- parents and scopes
  have hpar := fun v (hv : v ∈ B.nodes) => EM.parents_ok hB hr.nodes hr.parents hv
  choose! P hP1 hP2 hP3 using hpar
  set Q : V → List V := fun v => (P v).reverse with hQ
  have hQn : ∀ v ∈ B.nodes, (v :: Q v).Nodup := by
    intro v hv
    have := hP2 v hv
    rw [List.nodup_cons] at this ⊢
    exact ⟨by simpa [hQ] using this.1, List.nodup_reverse.2 this.2⟩
  have hQm : ∀ v ∈ B.nodes, ∀ w, w ∈ Q v ↔ w ∈ B.parents v := fun v hv w => by
    rw [hQ]; simp only [List.mem_reverse]; exact hP3 v hv w
  have hQs : ∀ v ∈ B.nodes, (Q v ++ [v]).Nodup := fun v hv => (List.perm_append_singleton v (Q v)).nodup_iff.2 (hQn v hv)
  have hQe : ∀ v ∈ B.nodes, Q v ≠ [] ↔ v ∈ m.endogenous := by
    intro v hv
    rw [hok.inner v hv, Ne, Ne, List.eq_nil_iff_forall_not_mem, List.eq_nil_iff_forall_not_mem]
    simp only [hQm v hv]
  have hQv : ∀ v ∈ B.nodes, ∀ a : V → S, (∀ u ∈ Q v ++ [v], a u ∈ B.states u) → ∀ u ∈ v :: B.parents v, a u ∈ B.states u := by
    intro v hv a ha u hu
    refine ha u ?_
    rcases List.mem_cons.1 hu with rfl | hu
    · simp
    · exact List.mem_append.2 (.inl ((hQm v hv u).2 hu))
  have h01 : ∀ v ∈ m.endogenous, ∀ a, B.InStates a → B.table v a = 0 ∨ B.table v a = 1 := fun v hv => hr.equations v hv (hok.nodes v hv)
  -- writing
  set toks : V → List Str := fun v => if v ∈ m.endogenous then (posVals B v (Q v)).map natText else (tableVals B v (Q v ++ [v])).map T.str with htoks
  set xs : V → List (Fl K) := fun v => if v ∈ m.endogenous then (posVals B v (Q v)).map fun (i : Nat) => .fin (i : K) else tableVals B v (Q v ++ [v])
    with hxs
  obtain ⟨sizes, s1, s2⟩ := varsizes_states (F := AnyFactor (storeOf vt : StoreImpl V S (Fl K)) (labelStoreOf vt : LabelStore V S))
    hr.nodes hB.nodes hk hd
  have hcards : order.mapM (fun v => Dict.get sizes v) = .ok (order.map fun v => (B.states v).length) :=
    mapM_ok fun v hv => s2 v ((hmo v).1 hv)
  have hscopes : (order.mapM fun v => do
      let sc ← scope m.base v
      return (v, sc)) = (.ok (order.map fun v => (v, Q v ++ [v])) : Py _) := by
    refine mapM_ok fun v hv => ?_
    rw [scope, hP1 v ((hmo v).1 hv)]
    rfl
  have hvals : (order.map fun v => (v, Q v ++ [v])).mapM (fun p => cellsOf T asInt ofNat m p.1 p.2) = .ok (order.map toks) := by
    rw [List.mapM_map]
    refine mapM_ok fun v hv => ?_
    have hv := (hmo v).1 hv
    obtain ⟨f, g1, g2⟩ := hr.table v hv
    simp only [Function.comp, htoks]
    rw [cellsOf]
    by_cases e : v ∈ m.endogenous
    · rw [if_pos e, if_pos e]
      have hfil : (Q v ++ [v]).filter (· ≠ v) = Q v := by
        rw [List.filter_append]
        have h1 : (Q v).filter (· ≠ v) = Q v := by
          rw [List.filter_eq_self]
          intro w hw
          have : w ≠ v := by rintro rfl; exact (List.nodup_cons.1 (hQn w hv)).1 hw
          simpa using this
        rw [h1]; simp
      obtain ⟨l, l1, l2⟩ := equationOf_ok hB hN hv (h01 v e) g1 g2 (hint v e) (hdet v e f g1) ((hQe v hv).2 e) (hQn v hv) (hQm v hv)
      rw [hfil, l1, py_ok_bind, l2, py_ok_bind, List.map_map]
      show Except.ok _ = _
      congr 1
    · rw [if_neg e, if_neg e]
      have hp : B.parents v = [] := by
        by_contra h
        exact e ((hok.inner v hv).2 h)
      cases f with
      | det g =>
        exact absurd (hexo v hv e _ g1) (by simp [AnyFactor.isDet])
      | multi g =>
        have g2 : IsTable B v g := g2
        have hval := valuesArray_table hI g2 (sc := Q v ++ [v]) (by simp) (hQs v hv) fun w => by
          rw [g2.vars w, List.mem_append, List.mem_singleton, hQm v hv, or_comm]
        rw [exoTableOf, Dict.get, g1]
        simp only [py_ok_bind]
        rw [hval]
        rfl
  have hnf : m.base.factors.length = order.length := by
    rw [ho.length_eq, ← hr.nodes, ← hr.keys, Dict.keys, List.length_map]
  have hwrite : toUaiScm T asInt ofNat m varOrder = .ok (textOf "CAUSAL".toList order Q (fun v => (B.states v).length) toks) := by
    rw [toUaiScm, hw, py_ok_bind, s1, py_ok_bind, hcards, py_ok_bind, hscopes, py_ok_bind, hvals, py_ok_bind, hnf, textOf, List.map_map]
    rfl
  -- reading
  obtain ⟨h, s, r1, r2, r3, r4, r5⟩ := read_text (T := T) takeNumE_lexer (label := "CAUSAL".toList) (by decide) hon (Q := Q)
    (k := fun v => (B.states v).length) (toks := toks) (xs := xs) lab
    (fun v hv w hw => (hmo w).2 (hB.parents v ((hmo v).1 hv) w ((hQm v ((hmo v).1 hv) w).1 hw)))
    (fun v hv => hQn v ((hmo v).1 hv))
    (by
      intro v hv
      have hv := (hmo v).1 hv
      rcases hok.connected v hv with h | ⟨w, hw, h⟩
      · exact .inl ((hQe v hv).2 ((hok.inner v hv).2 h))
      · exact .inr ⟨w, (hmo w).2 hw, (hQm w hw v).2 h⟩)
    (by
      intro v hv t ht
      have hv := (hmo v).1 hv
      simp only [htoks] at ht
      split at ht
      · obtain ⟨i, _, rfl⟩ := List.mem_map.1 ht
        exact natText_plain i
      · rename_i e
        obtain ⟨x, hx, rfl⟩ := List.mem_map.1 ht
        obtain ⟨a, ha, rfl⟩ := mem_tableVals (hQs v hv) hx
        exact hok.plain v hv e a (hQv v hv a ha))
    (by
      intro v hv
      have hv := (hmo v).1 hv
      simp only [htoks, hxs]
      split
      · rw [List.forall₂_map_left_iff, List.forall₂_map_right_iff, List.forall₂_same]
        exact fun i _ => hT i
      · rename_i e
        rw [List.forall₂_map_left_iff, List.forall₂_same]
        intro x hx
        obtain ⟨a, ha, rfl⟩ := mem_tableVals (hQs v hv) hx
        exact hok.exact v hv e a (hQv v hv a ha))
  have hfn : ∀ v ∈ order, fileName order v ∈ h.graph.nodes := fun v hv => r3.mem_iff.2 (List.mem_map.2 ⟨v, hv, rfl⟩)
  have hne : Nonempty (AnyFactor (storeOf vt' : StoreImpl Str S' (Fl K)) (labelStoreOf vt' : LabelStore Str S')) := by
    obtain ⟨f, _⟩ := Factor.make_ok hI' (left := none) (right := none) (values := [0]) (d := []) (r := [])
        ⟨List.nodup_nil, by simp, by simp⟩ rfl rfl
    exact ⟨.multi f⟩
  have hfac : ∀ v ∈ order, ∃ f : AnyFactor (storeOf vt' : StoreImpl Str S' (Fl K)) (labelStoreOf vt' : LabelStore Str S'),
      scmFactor (storeOf vt') (labelStoreOf vt') ofFloat h.graph (fileName order v) (fileDom order Q (fun v => (B.states v).length) lab v) (xs v) = .ok f ∧
        AnyTable (B.coded order lab h.graph.nodes) (fileName order v) f := by
    intro v hvo
    have hv := (hmo v).1 hvo
    have hpd : h.graph.predecessors (fileName order v) = .ok ((Q v).map (fileName order)) := by
      rw [DiGraph.predecessors, if_pos (hfn v hvo), r4 v hvo]
    by_cases e : v ∈ m.endogenous
    · obtain ⟨f, f1, f2⟩ := scmDet_ok (vt' := vt') hB hN ho hl (nodes := h.graph.nodes) hv (h01 v e) (hQn v hv) (hQm v hv) (hok.names v hv) hof
      refine ⟨.det f, ?_, f2⟩
      have hlen : ¬ ((Q v).map (fileName order)).length = 0 := by
        have := (hQe v hv).2 e
        simpa using this
      rw [scmFactor, hpd, py_ok_bind, if_neg hlen]
      simp only [hxs, if_pos e]
      rw [f1]
      rfl
    · obtain ⟨f, f1, f2⟩ := makeLeftStr_ok (nodes := h.graph.nodes) hI' hB ho hl hv (hQn v hv) (hQm v hv) (hok.names v hv)
      refine ⟨.multi f, ?_, f2⟩
      have hlen : ((Q v).map (fileName order)).length = 0 := by
        have : ¬ Q v ≠ [] := fun h => e ((hQe v hv).1 h)
        simpa using this
      rw [scmFactor, hpd, py_ok_bind, if_pos hlen]
      simp only [hxs, if_neg e]
      rw [fileDom, f1]
      rfl
  choose! F hF1 hF2 using hfac
  have hB' : (B.coded order lab h.graph.nodes).Valid := hB.coded ho hl r3
  have hdef : ∀ v ∈ order, fileName order v ∈ SCM.endoOr h.graph none ↔ v ∈ m.endogenous := by
    intro v hv
    rw [SCM.endoOr, SCM.defaultEndo, List.mem_filter, r4 v hv, ← hQe v ((hmo v).1 hv)]
    constructor
    · rintro ⟨_, h2⟩
      intro hc
      rw [hc] at h2
      simp at h2
    · intro h2
      refine ⟨hfn v hv, ?_⟩
      have := List.length_pos_iff.2 h2
      simpa using this
  obtain ⟨m1, _, m3⟩ := SCM.rep_built (vt := vt') hB' r2 rfl (fun w hw p => by
      obtain ⟨v, hv, rfl⟩ := List.mem_map.1 (r3.mem_iff.1 hw)
      rw [BN.coded_parents hv, ← DiGraph.mem_pred, r4 v hv, List.mem_map, List.mem_map]
      exact exists_congr fun u => and_congr_left fun _ => (hQm v ((hmo v).1 hv) u).symm)
    (l := order.map fun v => (fileName order v, F v))
    (by
      have : Dict.keys (order.map fun v => (fileName order v, F v)) = order.map (fileName order) := by
        simp [Dict.keys, List.map_map, Function.comp_def]
      rw [this]
      exact r3.symm)
    (by
      intro p hp
      obtain ⟨v, hv, rfl⟩ := List.mem_map.1 hp
      exact hF2 v hv) none true true
    (by
      intro w hw hwn x hx
      obtain ⟨v, hv, rfl⟩ := List.mem_map.1 (r3.mem_iff.1 hwn)
      rw [BN.coded_table hv]
      refine h01 v ((hdef v hv).1 hw) _ fun u hu => ?_
      have huo := (hmo u).2 hu
      have := hx (fileName order u) (hfn u huo)
      rw [BN.coded_states huo] at this
      exact (idxOf_decoded hl (hB.nodupStates u hu) this).1) rfl
  refine ⟨_, _, h.graph.nodes, hwrite, ?_, r3.trans (ho.map _), m3, fun v hv => hdef v ((hmo v).2 hv)⟩
  rw [fromUaiScm, checkLabel_textOf (by decide), py_ok_bind, r1]
  simp only [py_ok_bind]
  rw [r5 _ F hF1]
  simp only [py_ok_bind]
  rw [List.map_map] at m1
  exact m1

/-! ### Examples -/

/-- `float` on a printed natural number -/
theorem pyFloats_nat (i : Nat) : pyFloats.float (natText i) = .ok (.fin (i : ℚ)) := by
  have hd : ∀ c ∈ natText i, c.isDigit = true := fun c hc => Nat.isDigit_of_mem_toDigits (by decide) (by decide) hc
  have hne : natText i ≠ [] := Nat.toDigits_ne_nil
  have hval : Nat.ofDigitChars 10 (natText i) 0 = i := Nat.ofDigitChars_ten_toDigits
  have hr : pyFloatRead (natText i) = .ok (i : ℚ) := by
    generalize natText i = t at hd hne hval
    have h1 : t.takeWhile Char.isDigit = t := List.takeWhile_eq_self_iff.2 hd
    have h2 : t.dropWhile Char.isDigit = [] := List.dropWhile_eq_nil_iff.2 hd
    obtain ⟨c, t, rfl⟩ := List.exists_cons_of_ne_nil hne
    have e1 : c ≠ '-' := by rintro rfl; exact absurd (hd _ List.mem_cons_self) (by decide)
    have e2 : c ≠ '+' := by rintro rfl; exact absurd (hd _ List.mem_cons_self) (by decide)
    rw [pyFloatRead]
    · simp [h1, h2, hval]
    · intro d h; exact e1 (List.cons.inj h).1
    · intro d h; exact e2 (List.cons.inj h).1
  show (do
    let x ← pyFloatRead (natText i)
    return Fl.fin x) = _
  rw [hr]; rfl

/-- The example with decimal numbers -/
def rowsScmTen : List (SRow PyStr) :=
  [.num [(sU, ['0', '1', '2'])] [q (1/2), q (3/10), q (1/5)] sU,
   .num [(sW, ['0', '1'])] [q (1/4), q (3/4)] sW,
   .fn [(sX, ['0', '1']), (sU, ['0', '1', '2'])] ['0', '1', '1'] sX,
   .fn [(sY, ['0', '1']), (sX, ['0', '1']), (sW, ['0', '1'])] ['0', '1', '1', '0'] sY,
   .num [(sZ, ['0', '1']), (sY, ['0', '1']), (sU, ['0', '1', '2'])] [q 1, q 0, q 1, q 0, q 1, q 0, q 0, q 1, q 0, q 1, q 0, q 1] sZ]

theorem scmCheck_ten (vt : VType) : scmCheck vt gScm rowsScmTen [sX, sY, sZ] = true := by
  cases vt <;> decide +kernel

/-- `int` on a digit -/
def charInt (c : Char) : Py Int := if c.isDigit then .ok ((c.toNat - 48 : Nat) : Int) else .error .valueError
/-- A digit as a state -/
def natChar (i : Nat) : Char := Char.ofNat (48 + i)
/-- A float as a natural number -/
def flNat : Fl ℚ → Nat
  | .fin x => x.num.toNat
  | _ => 0

/-- What is needed for writing, evaluated -/
def uaiScmCheck (B : BN PyStr Char ℚ) (m : SCM (IS vt PyStr) (LS vt PyStr)) (varOrder : Option (List PyStr)) (order : List PyStr) : Bool :=
  printable B && decide (Dict.keys m.base.domains = B.nodes) &&
    B.nodes.all (fun v => decide (Dict.get? m.base.domains v = some (some (B.states v)))) &&
    B.nodes.all (fun v => decide (B.parents v ≠ []) || B.nodes.any fun w => v ∈ B.parents w) &&
    decide (writeOrder (m.endogenous ++ m.exogenous) varOrder = .ok order ∧ order.Nodup ∧ order.length ≤ 10) &&
    B.nodes.all (fun v => decide (v ∈ m.endogenous ↔ B.parents v ≠ [])) &&
    m.endogenous.all (fun v => decide (v ∈ B.nodes) &&
      (List.range (B.states v).length).all (fun i => decide (charInt (natChar i) = .ok (i : Int))) &&
      (B.states v).all fun s => decide (charInt s = .ok (((B.states v).idxOf s : Nat) : Int))) &&
    m.base.factors.all fun p => decide (p.1 ∈ m.endogenous) || p.2.all fun f => !f.isDet

/-- The check on the models built from rows, with deterministic factors kept or cast -/
def uaiScmCheckRows (vt : VType) (g : DiGraph PyStr) (rows : List (SRow PyStr)) (cast : Bool) (varOrder : Option (List PyStr))
    (order : List PyStr) : Bool :=
  match facsOf vt rows with
  | .ok l => match bnetOf vt g l with
    | .ok b => match SCM.ofList (I := IS vt PyStr) (L := LS vt PyStr) g (l.map fun p => some p.2) none cast true with
      | .ok m => uaiScmCheck (BN.ofModel (IS vt PyStr) b) m varOrder order
      | .error _ => false
    | .error _ => false
  | .error _ => false

theorem uaiScmCheck_ten (vt : VType) (cast : Bool) :
    uaiScmCheckRows vt gScm rowsScmTen cast (some [sW, sZ, sY, sX, sU]) [sW, sZ, sY, sX, sU] = true := by
  cases vt <;> cases cast <;> decide +kernel

/-- The hypotheses of `C64_round_trip_partial` can be met: the example, with its equations kept or cast, with the variables in
another order. -/
example (vt vt' : VType) (cast : Bool) : ∃ (m : SCM (IS vt PyStr) (LS vt PyStr)) (B : BN PyStr Char ℚ), m.Rep B ∧ B.Valid ∧ m.cast = cast ∧
    m.endogenous = [sX, sY, sZ] ∧
    ∃ t m' nodes, toUaiScm pyFloats charInt natChar m (some [sW, sZ, sY, sX, sU]) = .ok t ∧
      fromUaiScm (storeOf vt' : StoreImpl Str Nat (Fl ℚ)) (labelStoreOf vt') id flNat pyFloats t = .ok m' ∧
      nodes.Perm (B.nodes.map (fileName [sW, sZ, sY, sX, sU])) ∧ m'.Rep (B.coded [sW, sZ, sY, sX, sU] id nodes) ∧
      ∀ v ∈ B.nodes, fileName [sW, sZ, sY, sX, sU] v ∈ m'.endogenous ↔ v ∈ m.endogenous := by
  obtain ⟨l, b, h1, h2⟩ := scmCheck_spec (by decide) (scmCheck_ten vt)
  obtain ⟨m, m1, m2, m3, m4, m5⟩ := h2.model (e := none) (by decide) cast
  have hc := uaiScmCheck_ten vt cast
  rw [uaiScmCheckRows, h2.facs] at hc
  simp only [h1, m1] at hc
  rw [uaiScmCheck] at hc
  simp only [Bool.and_eq_true, decide_eq_true_eq, List.all_eq_true, Bool.or_eq_true, List.any_eq_true, List.mem_range] at hc
  obtain ⟨⟨⟨⟨⟨⟨⟨c1, c2⟩, c3⟩, c4⟩, c5, c6, c7⟩, c8⟩, c9⟩, c10⟩ := hc
  have h4 := h2.valid
  have ho : [sW, sZ, sY, sX, sU].Perm (BN.ofModel (IS vt PyStr) b : BN PyStr Char ℚ).nodes := by
    refine (List.perm_ext_iff_of_nodup c6 h4.nodes).2 fun v => ?_
    rw [writeOrder_mem c5 v, List.mem_append, SCM.exogenous, List.mem_filter, m2.nodes]
    constructor
    · rintro (h | h)
      · exact (c9 v h).1.1
      · exact h.1
    · intro h
      by_cases e : v ∈ m.endogenous
      · exact .inl e
      · exact .inr ⟨h, by simpa using e⟩
  refine ⟨m, _, m2, h4, m4, m3, C64_round_trip_partial vt vt' m2 h4 h2.norm c2 c3 c5 c6
    ⟨c4, C63_names_small h4 ho c7, fun v hv _ a ha => (printable_spec h4 c1 v hv a ha).1,
      fun v hv _ a ha => (printable_spec h4 c1 v hv a ha).2, c8, fun v hv => (c9 v hv).1.1⟩ pyFloats_nat (fun v hv => (c9 v hv).1.2)
    (fun v hv _ _ _ => (c9 v hv).2) ?_ (fun _ _ h => h) (fun i => by simp [flNat])⟩
  intro v hv he f hf
  rcases c10 _ (Dict.mem_of_get? hf) with h | h
  · exact absurd h he
  · simpa using h

/-- The text of the model `U → X` -/
example : ∀ vt, (do
    let l ← facsOf vt (V := PyStr) [.num [(sU, ['0', '1', '2'])] [q (1/2), q (3/10), q (1/5)] sU,
      .fn [(sX, ['0', '1']), (sU, ['0', '1', '2'])] ['0', '1', '1'] sX]
    let m ← SCM.ofList (I := IS vt PyStr) (L := LS vt PyStr) ⟨[sU, sX], [(sU, sX)]⟩ (l.map fun (p : PyStr × _) => some p.2) none true true
    toUaiScm pyFloats charInt natChar m none) = .ok "CAUSAL\n2\n2 3\n2\n2\t1 0\n1\t1\n\n3\t0 1 1\n3\t0.5 0.3 0.2\n".toList := by
  intro vt; cases vt <;> decide +kernel

/-! ### What does not survive -/

/-- Writes a model and reads the file: the variables, the endogenous ones and the tables -/
def scmThereAndBack (vt : VType) (g : DiGraph PyStr) (rows : List (SRow PyStr)) (endo : Option (List PyStr)) (cast : Bool) :
    Py (List Str × List Str × List (List (Fl ℚ))) := do
  let l ← facsOf vt rows
  let m ← SCM.ofList (I := IS vt PyStr) (L := LS vt PyStr) g (l.map fun p => some p.2) endo cast true
  let t ← toUaiScm pyFloats charInt natChar m none
  let m' ← fromUaiScm (storeOf .numpy : StoreImpl Str Nat (Fl ℚ)) (labelStoreOf .numpy) id flNat pyFloats t
  let vs ← m'.base.factors.mapM fun p => match p.2 with
    | some (.multi f) => f.valuesList
    | _ => .error .attributeError
  return (m'.base.graph.nodes, m'.endogenous, vs)

/-- The text written for a model -/
def scmText (vt : VType) (g : DiGraph PyStr) (rows : List (SRow PyStr)) (endo : Option (List PyStr)) (cast : Bool) : Py Str := do
  let l ← facsOf vt rows
  let m ← SCM.ofList (I := IS vt PyStr) (L := LS vt PyStr) g (l.map fun p => some p.2) endo cast true
  toUaiScm pyFloats charInt natChar m none

/-- `U → X` where the states of `X` are the given ones -/
def rowsUaiUX (s t : Char) : List (SRow PyStr) :=
  [.num [(sU, ['0', '1', '2'])] [q (1/2), q (3/10), q (1/5)] sU, .fn [(sX, [s, t]), (sU, ['0', '1', '2'])] [s, t, t] sX]

/-- **C64** an equation that was not cast is written with the states and not with their positions: with the states `1`, `0` the
equation that is read is another one, with the states `1`, `2` the table that is read has rows of zeros, and with states that are not numbers the model
cannot be written. After casting the positions are written. -/
theorem C64_labels : ∀ vt,
    (scmThereAndBack vt ⟨[sU, sX], [(sU, sX)]⟩ (rowsUaiUX '1' '0') none true).map (fun r => r.2.2) =
      .ok [[q (1/2), q (3/10), q (1/5)], [q 1, q 0, q 0, q 1, q 0, q 1]] ∧
    (scmThereAndBack vt ⟨[sU, sX], [(sU, sX)]⟩ (rowsUaiUX '1' '0') none false).map (fun r => r.2.2) =
      .ok [[q (1/2), q (3/10), q (1/5)], [q 0, q 1, q 1, q 0, q 1, q 0]] ∧
    (scmThereAndBack vt ⟨[sU, sX], [(sU, sX)]⟩ (rowsUaiUX '1' '2') none false).map (fun r => r.2.2) =
      .ok [[q (1/2), q (3/10), q (1/5)], [q 0, q 1, q 0, q 0, q 0, q 0]] ∧
    scmThereAndBack vt ⟨[sU, sX], [(sU, sX)]⟩ (rowsUaiUX 'a' 'b') none false = .error .valueError := by
  intro vt; cases vt <;> decide +kernel

/-- **C64** an endogenous variable without parents, here `X = 1`, is read as an exogenous one with the table `1, 1`, which is
not a distribution. -/
theorem C64_constant : ∀ vt cast, scmThereAndBack vt ⟨[sX, sY], [(sX, sY)]⟩
    [.fn [(sX, ['0', '1'])] ['1'] sX, .fn [(sY, ['0', '1']), (sX, ['0', '1'])] ['0', '1'] sY] (some [sX, sY]) cast =
      .ok ([varName 0, varName 1], [varName 1], [[q 1, q 1], [q 1, q 0, q 0, q 1]]) := by
  intro vt cast; cases vt <;> cases cast <;> decide +kernel

/-- **C64** a variable without arcs is written but not read. -/
theorem C64_isolated : ∀ vt cast, scmThereAndBack vt ⟨[sU, sX, sW], [(sU, sX)]⟩
    (rowsUaiUX '0' '1' ++ [.num [(sW, ['0', '1'])] [q (1/4), q (3/4)] sW]) none cast = .error .networkx := by
  intro vt cast; cases vt <;> cases cast <;> decide +kernel

/-- **C64** the pattern for numbers has `E` for exponents but python prints `e`: 1/100000 is read as the two numbers 1 and -5. -/
theorem C64_exponent : ∀ vt cast, (scmThereAndBack vt ⟨[sU, sX], [(sU, sX)]⟩
    [.num [(sU, ['0', '1', '2'])] [q (1/2), q (1/100000), q (49999/100000)] sU, .fn [(sX, ['0', '1']), (sU, ['0', '1', '2'])] ['0', '1', '1'] sX]
      none cast).map (fun r => r.2.2.head?) = .ok (some [q (1/2), q 1, q (-5)]) := by
  intro vt cast; cases vt <;> cases cast <;> decide +kernel

end Verif.Props
