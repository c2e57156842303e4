import Verif.Learn.Gradient
import Verif.Learn.DataLemmas
import Verif.Model.SCMLemmas
import Verif.Props.Graph
import Mathlib.Data.List.ProdSigma

/-!
# The objective of `GradientLikelihood`: helper lemmas
-/

set_option linter.unusedSectionVars false
set_option linter.unusedSimpArgs false

namespace Verif

variable {V S K : Type} [DecidableEq V] [DecidableEq S] [Inhabited S] [Field K] [LinearOrder K] {vt : VType}

local notation "II" => (storeOf vt : StoreImpl V S (Fl K))
local notation "LL" => (labelStoreOf vt : LabelStore V S)

/-- The model knows the states of all nodes. -/
def SCM.Doms (m : SCM II LL) (B : BN V S K) : Prop := m.base.domains = B.nodes.map fun v => (v, some (B.states v))

/-- The part of the nodes with their states -/
def partDom (B : BN V S K) (vs : List V) : Dom V S := (B.nodes.filter (· ∈ vs)).map fun v => (v, B.states v)

namespace Gradient

theorem domainsOf_ok {m : SCM II LL} {B : BN V S K} (hd : m.Doms B) (vs : List V) : m.domainsOf vs = .ok (partDom B vs) := by
  rw [SCM.domainsOf, DagModel.getDomains, hd, List.filter_map, partDom]
  have := mapM_ok (l := List.map (fun v => (v, some (B.states v))) (B.nodes.filter (· ∈ vs)))
    (f := SCM.needStates)
    (g := fun p => (p.1, B.states p.1)) (fun p hp => by
      obtain ⟨v, _, rfl⟩ := List.mem_map.1 hp
      rfl)
  rw [List.map_map] at this
  exact this

theorem keys_partDom (B : BN V S K) (vs : List V) : Dict.keys (partDom B vs) = B.nodes.filter (· ∈ vs) := by
  simp [Dict.keys, partDom, Function.comp_def]

theorem partDom_ok {B : BN V S K} (hB : B.Valid) (vs : List V) : DomOk (partDom B vs) where
  keys := by rw [keys_partDom]; exact hB.nodes.filter _
  states := by
    intro p hp
    obtain ⟨v, hv, rfl⟩ := List.mem_map.1 hp
    exact hB.nodupStates v (List.mem_filter.1 hv).1
  nonempty := by
    intro p hp
    obtain ⟨v, hv, rfl⟩ := List.mem_map.1 hp
    exact hB.nonempty v (List.mem_filter.1 hv).1

/-! ### Looking up a cell of a table -/

theorem get?_map_pair {X Y : Type} [DecidableEq X] (l : List X) (f : X → Y) {x : X} (h : x ∈ l) :
    Dict.get? (l.map fun x => (x, f x)) x = some (f x) := by
  induction l with
  | nil => cases h
  | cons y l ih =>
    by_cases hy : y = x
    · subst hy; simp [Dict.get?]
    · have : x ∈ l := by
        rcases List.mem_cons.1 h with h | h
        · exact absurd h.symm hy
        · exact h
      simp [Dict.get?, hy, ih this]

theorem isZeroAt_multi {B : BN V S K} (hB : B.Valid) {v : V} (hv : v ∈ B.nodes) {f : Factor II} (hf : IsTable B v f) {a : V → S}
    (ha : InDom f.dom a) :
    (AnyFactor.multi f : AnyFactor II LL).isZeroAt (f.dom.map fun p => (p.1, a p.1)) = .ok (decide (B.table v a = 0)) := by
  have hdom : DomOk f.dom := Factor.WF.domOk (storeOf_lawful vt) hf.wf
  have hval : f.valuesDict = .ok ((assignmentSpace f.dom).map fun o => (o, .fin (B.table v (asg o)))) := by
    refine mapM_ok fun o ho => ?_
    rw [hf.value o (mem_assignmentSpace_fullObs hdom.keys ho)]
    rfl
  have hmem : (f.dom.map fun p => (p.1, a p.1)) ∈ assignmentSpace f.dom := List.mem_of_getElem? (assignmentSpace_getElem? ha)
  have hget := get?_map_pair (assignmentSpace f.dom) (fun o => (Fl.fin (B.table v (asg o)) : Fl K)) hmem
  have hasg : B.table v (asg (f.dom.map fun p => (p.1, a p.1))) = B.table v a := by
    refine hB.scope v hv _ _ fun w hw => ?_
    have hw' : w ∈ Dict.keys f.dom := (hf.vars w).2 (by simpa using hw)
    have := covers_map f.dom a (e := f.dom) (fun _ h => h) w hw'
    rw [asg, over_of_get? this]
  show (do let d ← f.valuesDict; let x ← Dict.get d _; return x == .fin 0 : Py Bool) = _
  rw [hval, py_ok_bind, Dict.get, hget]
  simp only [hasg]
  show (Except.ok (Fl.fin (B.table v a) == Fl.fin 0) : Py Bool) = _
  congr 1
  by_cases h : B.table v a = 0
  · simp [h]
  · simp [h]

theorem key_ok {m : SCM II LL} {U : V} {bmV bmY : List V} {o1 o2 : Obs V S} {u : S} {d : Dom V S} {a : V → S}
    (h : ∀ w ∈ Dict.keys d, (w ∈ m.exogenous ∧ w = U) ∨ (w ∉ m.exogenous ∧ w ≠ U ∧ w ∈ bmV ∧ Dict.get? o1 w = some (a w)) ∨
      (w ∉ m.exogenous ∧ w ≠ U ∧ w ∉ bmV ∧ w ∈ bmY ∧ Dict.get? o2 w = some (a w))) :
    key m bmV bmY o1 o2 u (Dict.keys d) = .ok (d.map fun p => (p.1, upd a U u p.1)) := by
  have := mapM_ok (l := Dict.keys d) (f := fun w =>
    if w ∈ m.exogenous then .ok (w, u)
    else if w ∈ bmV then do let s ← Dict.get o1 w; return (w, s)
    else if w ∈ bmY then do let s ← Dict.get o2 w; return (w, s)
    else (.error .valueError : Py (V × S))) (g := fun w => (w, upd a U u w)) (fun w hw => by
      rcases h w hw with ⟨h1, h2⟩ | ⟨h1, h2, h3, h4⟩ | ⟨h1, h2, h3, h4, h5⟩
      · rw [if_pos h1, h2]; simp
      · rw [if_neg h1, if_pos h3, Dict.get, h4, upd_ne _ _ h2]; rfl
      · rw [if_neg h1, if_neg h3, if_pos h4, Dict.get, h5, upd_ne _ _ h2]; rfl)
  rw [key, this]
  simp [Dict.keys, Function.comp_def]

theorem prodOne_ok {m : SCM II LL} {B : BN V S K} {bmV bmY : List V} {o1 o2 : Obs V S} {u : S} {a : V → S} {vs : List V}
    (h : ∀ v ∈ vs, ∃ f : AnyFactor II LL, Dict.get? m.base.factors v = some (some f) ∧
      ∃ k, key m bmV bmY o1 o2 u f.allVars = .ok k ∧ f.isZeroAt k = .ok (decide (B.table v a = 0))) :
    prodOne m bmV bmY o1 o2 u vs = .ok (decide ((vs.map fun v => B.table v a).prod ≠ 0)) := by
  induction vs with
  | nil => simp [prodOne]
  | cons v vs ih =>
    obtain ⟨f, h1, k, h2, h3⟩ := h v List.mem_cons_self
    simp only [prodOne, Dict.get, h1, py_ok_bind, h2, h3]
    by_cases hz : B.table v a = 0
    · simp [hz]
    · simp only [hz, decide_false, Bool.false_eq_true, if_false]
      rw [ih fun w hw => h w (List.mem_cons_of_mem _ hw)]
      simp [hz]

/-! ### The sum over the states -/

theorem dot_ok {X : Type} (l : List X) (p : X → Bool) (t : X → K) : dot (l.map p) (l.map t) = .ok (l.map fun x => if p x then t x else 0).sum := by
  induction l with
  | nil => rfl
  | cons x l ih => simp only [List.map_cons, dot, ih, py_ok_bind, List.sum_cons]; rfl

/-! ### The loop -/

theorem nllFrom_fin {R : Type} [Field R] [LinearOrder R] {log : K → R} {theta : List K} {X : Type} (l : List X) {n : X → ℕ} {p : X → List Bool} {s : X → K}
    (hs : ∀ x ∈ l, dot (p x) theta = .ok (s x)) (hp : ∀ x ∈ l, n x ≠ 0 → 0 < s x) (acc : R) :
    nllFrom log theta (l.map fun x => (n x, p x)) (.fin acc) = .ok (.fin (-(acc + (l.map fun x => (n x : R) * log (s x)).sum))) := by
  induction l generalizing acc with
  | nil => simp [nllFrom]; rfl
  | cons x l ih =>
    have ih' := ih (fun y hy => hs y (List.mem_cons_of_mem _ hy)) (fun y hy => hp y (List.mem_cons_of_mem _ hy))
    simp only [List.map_cons, nllFrom, List.sum_cons]
    by_cases h0 : n x = 0
    · rw [if_pos h0, ih', h0]; simp
    · have hpos := hp x List.mem_cons_self h0
      rw [if_neg h0, hs x List.mem_cons_self, py_ok_bind, if_neg hpos.ne', npLog, if_neg (not_lt.2 hpos.le)]
      have : (Fl.fin acc : Fl R) + .fin (n x : R) * .fin (log (s x)) = .fin (acc + (n x : R) * log (s x)) := rfl
      rw [this, ih', add_assoc]

theorem nllFrom_inf {R : Type} [Field R] [LinearOrder R] {log : K → R} {theta : List K} {X : Type} (l : List X) {n : X → ℕ} {p : X → List Bool} {s : X → K}
    (hs : ∀ x ∈ l, dot (p x) theta = .ok (s x)) (hp : ∃ x ∈ l, n x ≠ 0 ∧ s x = 0) (acc : Fl R) :
    nllFrom log theta (l.map fun x => (n x, p x)) acc = .ok .pinf := by
  induction l generalizing acc with
  | nil => obtain ⟨x, hx, _⟩ := hp; cases hx
  | cons x l ih =>
    simp only [List.map_cons, nllFrom]
    by_cases h0 : n x = 0
    · rw [if_pos h0]
      refine ih (fun y hy => hs y (List.mem_cons_of_mem _ hy)) ?_ acc
      obtain ⟨y, hy, h1, h2⟩ := hp
      rcases List.mem_cons.1 hy with rfl | hy
      · exact absurd h0 h1
      · exact ⟨y, hy, h1, h2⟩
    · rw [if_neg h0, hs x List.mem_cons_self, py_ok_bind]
      by_cases hz : s x = 0
      · rw [if_pos hz]
      · rw [if_neg hz]
        refine ih (fun y hy => hs y (List.mem_cons_of_mem _ hy)) ?_ _
        obtain ⟨y, hy, h1, h2⟩ := hp
        rcases List.mem_cons.1 hy with rfl | hy
        · exact absurd h2 hz
        · exact ⟨y, hy, h1, h2⟩

/-! ### From cells to records -/

/-- A sum over cells, weighted with counts, is a sum over records. -/
theorem sum_counts {X R : Type} [DecidableEq X] {l : List X} (hl : l.Nodup) (rows : List R) (hit : X → R → Bool) (cell : R → X)
    (counted : R → Bool) (h : ∀ r ∈ rows, ∀ x ∈ l, hit x r = true ↔ counted r = true ∧ x = cell r)
    (hc : ∀ r ∈ rows, counted r = true → cell r ∈ l) (f : X → K) :
    (l.map fun x => (rows.countP (hit x) : K) * f x).sum = ((rows.filter counted).map fun r => f (cell r)).sum := by
  induction rows with
  | nil => simp
  | cons r rows ih =>
    have ih' := ih (fun q hq => h q (List.mem_cons_of_mem _ hq)) (fun q hq => hc q (List.mem_cons_of_mem _ hq))
    have e : (l.map fun x => ((r :: rows).countP (hit x) : K) * f x) =
        l.map fun x => (rows.countP (hit x) : K) * f x + (if counted r = true ∧ x = cell r then f x else 0) := by
      refine List.map_congr_left fun x hx => ?_
      rw [List.countP_cons]
      by_cases hh : hit x r = true
      · rw [if_pos hh, if_pos ((h r List.mem_cons_self x hx).1 hh)]
        push_cast; ring
      · rw [if_neg hh, if_neg (fun k => hh ((h r List.mem_cons_self x hx).2 k))]
        push_cast; ring
    rw [e, List.sum_map_add, ih']
    by_cases hcr : counted r = true
    · have hm := hc r List.mem_cons_self hcr
      rw [List.filter_cons_of_pos hcr, List.map_cons, List.sum_cons, add_comm]
      congr 1
      have : (l.map fun x => if counted r = true ∧ x = cell r then f x else 0) = l.map fun x => if x = cell r then f (cell r) else 0 := by
        refine List.map_congr_left fun x _ => ?_
        by_cases hx : x = cell r
        · simp [hcr, hx]
        · simp [hx]
      rw [this]
      clear this e ih ih' h hc
      induction l with
      | nil => cases hm
      | cons y l ihl =>
        obtain ⟨h1, h2⟩ := List.nodup_cons.1 hl
        rw [List.map_cons, List.sum_cons]
        by_cases hy : y = cell r
        · have : (l.map fun x => if x = cell r then f (cell r) else 0) = l.map fun _ => (0 : K) :=
            List.map_congr_left fun x hx => if_neg fun e => h1 (by rw [hy, ← e]; exact hx)
          rw [if_pos hy, this]; simp
        · rw [if_neg hy, zero_add]
          refine ihl h2 ?_
          rcases List.mem_cons.1 hm with e | e
          · exact absurd e.symm hy
          · exact e
    · rw [List.filter_cons_of_neg hcr]
      have : (l.map fun x => if counted r = true ∧ x = cell r then f x else 0) = l.map fun _ => (0 : K) :=
        List.map_congr_left fun x hx => if_neg fun e => hcr e.1
      rw [this]; simp

end Gradient

end Verif
