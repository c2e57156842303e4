import Verif.Props.Pgmpy
import Verif.Props.Networks

/-!
# Exactly when single names and exported tables are right (C62, C65)
-/

set_option linter.unusedSectionVars false
set_option linter.unusedSimpArgs false

namespace Verif.Props
open Verif Verif.Uai Verif.Pgmpy

section
variable {F S : Type} [DecidableEq S] [FactorLike F (List Char) S]

/-- **C62** the method is right for exactly those variables whose name does not contain the name of another one. -/
theorem C62_exact {m : DagModel F (List Char) S} (hk : (Dict.keys m.domains).Nodup) {name : List Char} {d : Option (List S)}
    (hd : Dict.get? m.domains name = some d) :
    getDomainsOfName m name = [(name, d)] ↔ ∀ v ∈ Dict.keys m.domains, v <:+: name → v = name := by
  refine ⟨fun h v hv hs => ?_, C62_single_partial hk hd⟩
  obtain ⟨e, he⟩ := Dict.mem_keys.1 hv
  have : (v, e) ∈ getDomainsOfName m name := List.mem_filter.2 ⟨he, by simpa using hs⟩
  rw [h, List.mem_singleton] at this
  exact congrArg Prod.fst this

/-- **C62** what is returned for any name: the domains of all variables whose name is a part of it. -/
theorem C62_parts {m : DagModel F (List Char) S} {name v : List Char} {e : Option (List S)} :
    (v, e) ∈ getDomainsOfName m name ↔ (v, e) ∈ m.domains ∧ ∃ l r, name = l ++ v ++ r := by
  rw [getDomainsOfName, List.mem_filter, decide_eq_true_eq]
  simp only [List.IsInfix, eq_comm (a := name)]

end

section
variable {V S K : Type} [DecidableEq V] [DecidableEq S] [Nonempty S] [Field K] [LinearOrder K]

/-- **C65** for tables whose variable comes last the export is answered exactly when there is at most one parent or the first
parent has as many states as the variable, and what is answered is right. -/
theorem C65_exact (vt : VType) {B : BN V S K} (hB : B.Valid) {v : V} (hv : v ∈ B.nodes)
    {f : Factor (storeOf vt : StoreImpl V S (Fl K))} (hf : IsTable B v f) (hord : f.vars = f.rightVars ++ [v]) :
    ((∃ t, toTabularArgs f = .ok t) ↔ f.rightVars.length ≤ 1 ∨ ∀ p ∈ f.rightVars.head?, (B.states p).length = (B.states v).length) ∧
    ∀ t, toTabularArgs f = .ok t → IsMatrix B v f.rightVars t.values := by
  have hno : ¬ (f.rightVars.length ≤ 1 ∨ ∀ p ∈ f.rightVars.head?, (B.states p).length = (B.states v).length) →
      toTabularArgs f = .error .valueError := by
    intro hc
    rcases hr : f.rightVars with _ | ⟨p, _ | ⟨p', r⟩⟩
    · exact absurd (.inl (by rw [hr]; simp)) hc
    · exact absurd (.inl (by rw [hr]; simp)) hc
    · refine C65_raises vt hB hv hf hord hr fun h => hc (.inr fun q hq => ?_)
      rw [hr] at hq
      obtain rfl : p = q := by simpa using hq
      exact h
  constructor
  · constructor
    · rintro ⟨t, ht⟩
      by_contra hc
      rw [hno hc] at ht
      cases ht
    · intro hc
      obtain ⟨t, ht, _⟩ := C65_table_partial vt hB hv hf hord hc
      exact ⟨t, ht⟩
  · intro t ht
    by_cases hc : f.rightVars.length ≤ 1 ∨ ∀ p ∈ f.rightVars.head?, (B.states p).length = (B.states v).length
    · obtain ⟨t', ht', _, _, _, _, _, h⟩ := C65_table_partial vt hB hv hf hord hc
      rw [ht] at ht'
      cases ht'
      exact h
    · rw [hno hc] at ht
      cases ht

theorem assignmentSpace_one (p : V) (st : List S) : assignmentSpace [(p, st)] = st.map fun s => [(p, s)] := by
  simp [assignmentSpace, stateSpace, product, Function.comp_def, List.map_flatMap]
  exact List.flatMap_pure_eq_map _ _

/-- The cells of a table listed with the variable first -/
theorem tableVals_pair {B : BN V S K} (hB : B.Valid) {v p : V} (hv : v ∈ B.nodes) (hp : B.parents v = [p]) {a : V → S}
    (h1 : a v ∈ B.states v) (h2 : a p ∈ B.states p) :
    (tableVals B v [v, p]).getD ((B.states p).length * (B.states v).idxOf (a v) + (B.states p).idxOf (a p)) default = .fin (B.table v a) := by
  have hin : InDom (scopeDom B [v, p]) a := by
    intro r hr
    obtain ⟨u, hu, rfl⟩ := List.mem_map.1 hr
    rcases List.mem_cons.1 hu with rfl | hu
    · exact h1
    · rw [List.mem_singleton.1 hu]; exact h2
  have h := assignmentSpace_getElem? hin
  have e : ravel (cards (scopeDom B [v, p])) (coords (scopeDom B [v, p]) a) =
      (B.states p).length * (B.states v).idxOf (a v) + (B.states p).idxOf (a p) := by
    simp [scopeDom, cards, coords, ravel, Nat.mul_comm]
  rw [← e, tableVals, List.getD_eq_getElem?_getD, List.getElem?_map, h]
  simp only [Option.map_some, Option.getD_some]
  congr 1
  refine hB.scope v hv _ _ fun u hu => ?_
  refine over_of_get? (covers_map (scopeDom B [v, p]) a (e := scopeDom B [v, p]) (fun v h => h) u ?_)
  rw [scopeDom_keys, ← hp]; exact hu

/-- **C65** for a table with one parent whose variable comes first, the matrix is the transpose of the right one: it is right
exactly when parent and variable have as many states and the table is symmetric. -/
theorem C65_first (vt : VType) {B : BN V S K} (hB : B.Valid) {v p : V} (hv : v ∈ B.nodes) (hp : B.parents v = [p])
    {f : Factor (storeOf vt : StoreImpl V S (Fl K))} (hf : IsTable B v f) (hord : f.vars = [v, p]) :
    ∃ t, toTabularArgs f = .ok t ∧ t.values.shape = [(B.states p).length, (B.states v).length] ∧
      (∀ (i j : ℕ) s r, (B.states p)[i]? = some r → (B.states v)[j]? = some s → ∀ a : V → S, a v = s → a p = r → t.values.get [i, j] = .fin (B.table v a)) ∧
      (IsMatrix B v [p] t.values ↔ (B.states p).length = (B.states v).length ∧
        ∀ (i j : ℕ) s s' r r', (B.states v)[i]? = some s → (B.states v)[j]? = some s' → (B.states p)[i]? = some r → (B.states p)[j]? = some r' →
          ∀ a b : V → S, a v = s → a p = r' → b v = s' → b p = r → B.table v a = B.table v b) := by
  have hI := storeOf_lawful (V := V) (S := S) (α := Fl K) vt
  have hpn : p ∈ B.nodes := hB.parents v hv p (by rw [hp]; simp)
  have hvp : p ≠ v := by
    have := (hf.wf.domOk hI).keys
    rw [show Dict.keys f.dom = [v, p] from hord] at this
    exact fun h => by simp [h] at this
  have hidx : ∀ {w : V} {i : ℕ} {s : S}, w ∈ B.nodes → (B.states w)[i]? = some s → (B.states w).idxOf s = i := by
    intro w i s hw h
    obtain ⟨hlt, hx⟩ := List.getElem?_eq_some_iff.1 h
    rw [← hx]; exact (hB.nodupStates w hw).idxOf_getElem i hlt
  have hlen : tableVals B v [v, p] = tableVals B v f.vars := by rw [hord]
  have hcell : ∀ (i j : ℕ) s r, (B.states p)[i]? = some r → (B.states v)[j]? = some s → ∀ a : V → S, a v = s → a p = r →
      (NdArray.transpose ⟨[(B.states v).length, (B.states p).length], tableVals B v [v, p]⟩).get [i, j] = .fin (B.table v a) := by
    intro i j s r hi hj a hav hap
    have h := tableVals_pair hB hv hp (a := a) (by rw [hav]; exact List.mem_of_getElem? hj) (by rw [hap]; exact List.mem_of_getElem? hi)
    rw [hav, hap, hidx hv hj, hidx hpn hi] at h
    rw [← h, NdArray.transpose, NdArray.get_build]
    · simp [NdArray.get, ravel, Nat.mul_comm]
    · exact .cons (List.getElem?_eq_some_iff.1 hi).1 (.cons (List.getElem?_eq_some_iff.1 hj).1 .nil)
  have hsp : ∀ (j : ℕ) r, (B.states p)[j]? = some r ↔ (assignmentSpace ([p].map fun q => (q, B.states q)))[j]? = some [(p, r)] := by
    intro j r
    rw [List.map_singleton, assignmentSpace_one, List.getElem?_map]
    simp
  refine ⟨_, by rw [toTabularArgs_eq hI hf, hord]; rfl, rfl, hcell, ?_⟩
  have hsl : (assignmentSpace ([p].map fun q => (q, B.states q))).length = (B.states p).length := by
    rw [assignmentSpace_length]; simp [cards]
  have hso : ∀ (j : ℕ) o, (assignmentSpace ([p].map fun q => (q, B.states q)))[j]? = some o → ∃ r, (B.states p)[j]? = some r ∧ o = [(p, r)] := by
    intro j o h
    have hj : j < (B.states p).length := by rw [← hsl]; exact (List.getElem?_eq_some_iff.1 h).1
    refine ⟨(B.states p)[j], List.getElem?_eq_getElem hj, ?_⟩
    have := (hsp j _).1 (List.getElem?_eq_getElem hj)
    rw [h] at this
    exact Option.some.inj this
  constructor
  · intro h
    have hsh : [(B.states p).length, (B.states v).length] = [(B.states v).length, (assignmentSpace ([p].map fun q => (q, B.states q))).length] := h.shape
    refine ⟨(List.cons.inj hsh).1, fun i j s s' r r' hi hj hi' hj' a b ha1 ha2 hb1 hb2 => ?_⟩
    have e1 := h.cell i s hi j _ ((hsp j r').1 hj') a ha1 (by simpa using ha2)
    have e2 := hcell i j s' r hi' hj b hb1 hb2
    exact Fl.fin.inj (e1.symm.trans e2)
  · rintro ⟨hl, h⟩
    refine ⟨?_, NdArray.wf_build _ _, fun i s hi j o hj a ha1 ha2 => ?_⟩
    · show [(B.states p).length, (B.states v).length] = [_, _]
      rw [hsl, hl]
    · obtain ⟨r', hr', rfl⟩ := hso j o hj
      have hip : i < (B.states p).length := by rw [hl]; exact (List.getElem?_eq_some_iff.1 hi).1
      have hjv : j < (B.states v).length := by rw [← hl]; exact (List.getElem?_eq_some_iff.1 hr').1
      have hb1 : Function.update (Function.update a v (B.states v)[j]) p (B.states p)[i] v = (B.states v)[j] := by
        rw [Function.update_of_ne hvp.symm, Function.update_self]
      have hb2 : Function.update (Function.update a v (B.states v)[j]) p (B.states p)[i] p = (B.states p)[i] := Function.update_self ..
      refine (hcell i j _ _ (List.getElem?_eq_getElem hip) (List.getElem?_eq_getElem hjv) _ hb1 hb2).trans ?_
      exact congrArg Fl.fin (h i j _ _ _ _ hi (List.getElem?_eq_getElem hjv) (List.getElem?_eq_getElem hip) hr' a _ ha1 (ha2 (p, r') (by simp)) hb1 hb2).symm

end

/-- Tables with the variable first: a symmetric one is exported correctly, another is transposed (`C65_order`), and with different
numbers of states the constructor of pgmpy refuses the matrix. -/
theorem C65_first_example : ∀ vt, (do
    let f ← Factor.make (IQ vt) [('B', ['a', 'b']), ('A', ['a', 'b'])] [q (1/4), q (3/4), q (3/4), q (1/4)] (some ['B']) none
    let t ← toTabularArgs f
    let f' ← Factor.make (IQ vt) [('B', ['a', 'b']), ('A', ['a', 'b', 'c'])] [q (1/4), q (3/4), q 1, q (3/4), q (1/4), q 0] (some ['B']) none
    let t' ← toTabularArgs f'
    return (t.values.shape, t.values.flat, t'.variableCard, t'.values.shape, (toTabularCPT f').toOption.isSome)) =
      (.ok ([2, 2], [q (1/4), q (3/4), q (3/4), q (1/4)], 2, [3, 2], false) : Py _) := by
  intro vt; cases vt <;> decide +kernel

/-- `C62_exact` both ways: of `U` and `U1` only `U` is answered correctly. -/
theorem C62_exact_example : twoExo.map (fun m => ((Dict.keys m.domains).all fun v => decide (v <:+: ['U'] → v = ['U']),
    (Dict.keys m.domains).all fun v => decide (v <:+: ['U', '1'] → v = ['U', '1']), decide (Dict.keys m.domains).Nodup)) = .ok (true, false, true) := by
  decide +kernel

end Verif.Props
