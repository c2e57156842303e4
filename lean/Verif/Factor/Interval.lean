import Verif.Factor.Api

/-!
# Interval factors (`factors/imprecise.py`)

An interval factor is a store with the additional first variable `_bound`, whose states are `low` and `up`.
Other names that begin with an underscore are refused by the constructor of every factor.
-/

set_option linter.unusedSectionVars false
set_option linter.unusedSimpArgs false

namespace Verif

/-- `imprecise.py:36` the name `_bound` and its states -/
structure BoundNames (V S : Type) where
  bound : V
  low : S
  up : S
  ne : low ≠ up

section
variable {K : Type} [Field K] [LinearOrder K]

/-- `x < y` for floats: false when one of them is `nan` -/
def Fl.lt : Fl K → Fl K → Bool
  | .fin x, .fin y => x < y
  | .fin _, .pinf => true
  | .ninf, .fin _ => true
  | .ninf, .pinf => true
  | _, _ => false

/-- `np.minimum`, which propagates `nan` -/
def Fl.npMin2 (x y : Fl K) : Fl K := if x = .nan then x else if y = .nan then y else if y.lt x then y else x

/-- `np.maximum` -/
def Fl.npMax2 (x y : Fl K) : Fl K := if x = .nan then x else if y = .nan then y else if x.lt y then y else x

/-- `values.min(axis=1)` on a row; `ValueError` for an empty one -/
def Fl.npMin : List (Fl K) → Py (Fl K)
  | [] => .error .valueError
  | x :: xs => .ok (xs.foldl npMin2 x)

/-- `values.max(axis=1)` on a row -/
def Fl.npMax : List (Fl K) → Py (Fl K)
  | [] => .error .valueError
  | x :: xs => .ok (xs.foldl npMax2 x)

/-- python `min`: keeps the first of the smallest; `ValueError` for an empty list -/
def Fl.pyMin : List (Fl K) → Py (Fl K)
  | [] => .error .valueError
  | x :: xs => .ok (xs.foldl (fun m y => if y.lt m then y else m) x)

/-- python `max` -/
def Fl.pyMax : List (Fl K) → Py (Fl K)
  | [] => .error .valueError
  | x :: xs => .ok (xs.foldl (fun m y => if m.lt y then y else m) x)

end

variable {V S K : Type} [DecidableEq V] [DecidableEq S] [Field K] [LinearOrder K]

/-- `IntervalProbFactor` -/
structure IFactor (I : StoreImpl V S (Fl K)) where
  store : I.St
  rightVars : List V

/-- `d1 == d2` for dictionaries.  Two `OrderedDict`s are moreover compared in order, in which case more
lists of factors are refused. -/
def dictEq (d1 d2 : Dom V S) : Prop := d1.length = d2.length ∧ ∀ p ∈ d1, Dict.get? d2 p.1 = some p.2

instance (d1 d2 : Dom V S) : Decidable (dictEq d1 d2) := by unfold dictEq; infer_instance

namespace IFactor

variable {I J : StoreImpl V S (Fl K)} (N : BoundNames V S)

/-- `imprecise.py:87-89` `domain` -/
def dom (f : IFactor I) : Dom V S := (I.dom f.store).filter fun p => p.1 ≠ N.bound

/-- `imprecise.py:75-77` `variables` -/
def vars (f : IFactor I) : List V := (Dict.keys (I.dom f.store)).filter fun v => v ≠ N.bound

/-- `imprecise.py:82-84` `left_vars`, the second definition, which replaces the first -/
def leftVars (f : IFactor I) : List V := (f.vars N).filter fun v => v ∉ f.rightVars

/-- `imprecise.py:23-54` constructor with flat values: `np.reshape` of each table (`ValueError` when the number of
values is wrong), then the two tables stacked along the new first axis. -/
def make (I : StoreImpl V S (Fl K)) (d : Dom V S) (lows ups : List (Fl K)) (left : Option (List V)) : Py (IFactor I) := do
  Factor.checkDomain d
  if N.bound ∈ Dict.keys d then throw .valueError
  if lows.length ≠ (cards d).prod then throw .valueError
  if ups.length ≠ (cards d).prod then throw .valueError
  let st ← I.ofFlat ((N.bound, [N.low, N.up]) :: d) (lows ++ ups)
  let r ← Factor.setVariables (N.bound :: Dict.keys d) left none
  return ⟨st, r⟩

/-- `imprecise.py:56-64` `from_precise`; the new factor always has the default store -/
def fromPrecise (I : StoreImpl V S (Fl K)) : List (Factor J) → Py (IFactor I)
  | [] => .error .indexError
  | f :: fs => do
    if ¬ ∀ g ∈ f :: fs, dictEq f.dom g.dom then throw .valueError
    let rows ← (assignmentSpace f.dom).mapM fun o => (f :: fs).mapM fun g => g.getValue o
    let lows ← rows.mapM Fl.npMin
    let ups ← rows.mapM Fl.npMax
    make N I f.dom lows ups (some f.leftVars)

/-- `factor.py:87-88` `get_value`, inherited: the bound is given as the state of `_bound` -/
def getValue (f : IFactor I) (obs : Obs V S) : Py (Fl K) := I.getValue f.store obs

/-- `factor.py:90-92` `values`, inherited -/
def values (f : IFactor I) : Py (List (Fl K)) := I.valuesList f.store

/-- `imprecise.py:93-100` `restrict`.  `.data` of the numpy store, the one that `from_precise` uses, is read cell by
cell. -/
def restrict (f : IFactor I) (obs : Obs V S) : Py (IFactor I) :=
  if ∀ v ∈ Dict.keys obs, v ∉ Dict.keys (I.dom f.store) then .ok f else do
    let st ← I.restrict f.store obs
    let lo ← I.restrict st [(N.bound, N.low)]
    let lows ← I.valuesList lo
    let hi ← I.restrict st [(N.bound, N.up)]
    let ups ← I.valuesList hi
    make N I ((I.dom st).filter fun p => p.1 ≠ N.bound) lows ups
      (some ((Dict.keys (I.dom st)).filter fun v => v ∈ f.leftVars N))

end IFactor

/-- Result of a query to several models, or of aggregating it -/
inductive MultiResult (I J : StoreImpl V S (Fl K))
  | factors (fs : List (Factor J))
  | interval (f : IFactor I)
  | numbers (xs : List (Fl K))

/-- `multi.py:50-66` `_process_output` (`flag` is `_interval_result`).  Without factors python would take
`min([])`. -/
def processOutput {I J : StoreImpl V S (Fl K)} (N : BoundNames V S) (flag : Bool) (result : MultiResult I J)
    (obs : Option (Obs V S)) : Py (MultiResult I J) := do
  let result ← match obs, result with
    | none, r => pure r
    | some o, .factors fs => do
      let xs ← fs.mapM fun f => f.getValue o
      pure (.numbers xs)
    | some o, .interval f => do
      let r ← f.restrict N o
      let xs ← r.values
      pure (.numbers xs)
    | some _, .numbers _ => throw .attributeError
  if flag then
    match result with
    | .numbers xs => do
      let lo ← Fl.pyMin xs
      let hi ← Fl.pyMax xs
      return .numbers [lo, hi]
    | .factors [] => throw .valueError
    | .factors fs => do
      let r ← IFactor.fromPrecise N I fs
      return .interval r
    | .interval _ => throw .typeError
  else return result

/-! ### Lemmas -/

section
variable {N : BoundNames V S}

theorem foldl_min_fin (xs : List K) (x : K) :
    ((xs.map Fl.fin).foldl Fl.npMin2 (Fl.fin x) = .fin (xs.foldl min x)) ∧
    ((xs.map Fl.fin).foldl (fun m y => if y.lt m then y else m) (Fl.fin x) = .fin (xs.foldl min x)) := by
  induction xs generalizing x with
  | nil => simp
  | cons y ys ih =>
    have h1 : Fl.npMin2 (Fl.fin x) (Fl.fin y) = .fin (min x y) := by
      simp only [Fl.npMin2, reduceCtorEq, if_false, Fl.lt, decide_eq_true_eq]
      split
      · next h => rw [min_eq_right h.le]
      · next h => rw [min_eq_left (not_lt.1 h)]
    have h2 : (if (Fl.fin y).lt (Fl.fin x) then Fl.fin y else Fl.fin x) = .fin (min x y) := by
      simp only [Fl.lt, decide_eq_true_eq]
      split
      · next h => rw [min_eq_right h.le]
      · next h => rw [min_eq_left (not_lt.1 h)]
    simp only [List.map_cons, List.foldl_cons, h1, h2]
    exact ih _

theorem foldl_max_fin (xs : List K) (x : K) :
    ((xs.map Fl.fin).foldl Fl.npMax2 (Fl.fin x) = .fin (xs.foldl max x)) ∧
    ((xs.map Fl.fin).foldl (fun m y => if m.lt y then y else m) (Fl.fin x) = .fin (xs.foldl max x)) := by
  induction xs generalizing x with
  | nil => simp
  | cons y ys ih =>
    have h1 : Fl.npMax2 (Fl.fin x) (Fl.fin y) = .fin (max x y) := by
      simp only [Fl.npMax2, reduceCtorEq, if_false, Fl.lt, decide_eq_true_eq]
      split
      · next h => rw [max_eq_right h.le]
      · next h => rw [max_eq_left (not_lt.1 h)]
    have h2 : (if (Fl.fin x).lt (Fl.fin y) then Fl.fin y else Fl.fin x) = .fin (max x y) := by
      simp only [Fl.lt, decide_eq_true_eq]
      split
      · next h => rw [max_eq_right h.le]
      · next h => rw [max_eq_left (not_lt.1 h)]
    simp only [List.map_cons, List.foldl_cons, h1, h2]
    exact ih _

theorem foldl_min_spec (xs : List K) (x : K) :
    xs.foldl min x ∈ x :: xs ∧ ∀ y ∈ x :: xs, xs.foldl min x ≤ y := by
  induction xs generalizing x with
  | nil => simp
  | cons y ys ih =>
    obtain ⟨h1, h2⟩ := ih (min x y)
    rw [List.foldl_cons]
    refine ⟨?_, fun z hz => ?_⟩
    · rcases List.mem_cons.1 h1 with h | h
      · rcases min_choice x y with e | e <;> rw [h, e] <;> simp
      · exact List.mem_cons_of_mem _ (List.mem_cons_of_mem _ h)
    · have h0 := h2 (min x y) List.mem_cons_self
      rcases List.mem_cons.1 hz with rfl | hz
      · exact h0.trans (min_le_left _ _)
      · rcases List.mem_cons.1 hz with rfl | hz
        · exact h0.trans (min_le_right _ _)
        · exact h2 z (List.mem_cons_of_mem _ hz)

theorem foldl_max_spec (xs : List K) (x : K) :
    xs.foldl max x ∈ x :: xs ∧ ∀ y ∈ x :: xs, y ≤ xs.foldl max x := by
  induction xs generalizing x with
  | nil => simp
  | cons y ys ih =>
    obtain ⟨h1, h2⟩ := ih (max x y)
    rw [List.foldl_cons]
    refine ⟨?_, fun z hz => ?_⟩
    · rcases List.mem_cons.1 h1 with h | h
      · rcases max_choice x y with e | e <;> rw [h, e] <;> simp
      · exact List.mem_cons_of_mem _ (List.mem_cons_of_mem _ h)
    · have h0 := h2 (max x y) List.mem_cons_self
      rcases List.mem_cons.1 hz with rfl | hz
      · exact (le_max_left _ _).trans h0
      · rcases List.mem_cons.1 hz with rfl | hz
        · exact (le_max_right _ _).trans h0
        · exact h2 z (List.mem_cons_of_mem _ hz)

end

section
variable {I : StoreImpl V S (Fl K)} (hI : I.Lawful) (N : BoundNames V S)
include hI

theorem domOk_bound {d : Dom V S} (hd : DomOk d) (hb : N.bound ∉ Dict.keys d) :
    DomOk ((N.bound, [N.low, N.up]) :: d) := by
  refine ⟨?_, ?_, ?_⟩
  · rw [Dict.keys_cons, List.nodup_cons]; exact ⟨hb, hd.keys⟩
  · intro p hp
    rcases List.mem_cons.1 hp with rfl | hp
    · simp [N.ne]
    · exact hd.states p hp
  · intro p hp
    rcases List.mem_cons.1 hp with rfl | hp
    · simp
    · exact hd.nonempty p hp

/-- The interval factor made from two tables. -/
theorem IFactor.make_ok {d : Dom V S} {lows ups : List (Fl K)} {left : List V} (hd : DomOk d) (hb : N.bound ∉ Dict.keys d)
    (h1 : lows.length = (cards d).prod) (h2 : ups.length = (cards d).prod) :
    ∃ r, make N I d lows ups (some left) = .ok r ∧ I.WF r.store ∧ I.dom r.store = (N.bound, [N.low, N.up]) :: d ∧
      (r.rightVars = (N.bound :: Dict.keys d).filter fun v => v ∉ left) ∧
      ∀ a, InDom d a →
        (a N.bound = N.low → I.sem r.store a = lows.getD (ravel (cards d) (coords d a)) default) ∧
        (a N.bound = N.up → I.sem r.store a = ups.getD (ravel (cards d) (coords d a)) default) := by
  have hc : cards ((N.bound, [N.low, N.up]) :: d) = 2 :: cards d := rfl
  obtain ⟨st, g1, g2, g3, g4⟩ := hI.ofFlat_ok (domOk_bound hI N hd hb) (data := lows ++ ups)
    (by rw [hc, List.length_append, h1, h2, List.prod_cons, two_mul])
  refine ⟨⟨st, (N.bound :: Dict.keys d).filter fun v => v ∉ left⟩, ?_, g2, g3, rfl, fun a ha => ⟨fun hl => ?_, fun hl => ?_⟩⟩
  · simp [make, Factor.checkDomain_ok hd, hb, h1, h2, g1, Factor.setVariables]
  · have hin : InDom ((N.bound, [N.low, N.up]) :: d) a := by
      intro p hp
      rcases List.mem_cons.1 hp with rfl | hp
      · simp [hl]
      · exact ha p hp
    have hco : coords ((N.bound, [N.low, N.up]) :: d) a = 0 :: coords d a := by simp [coords, hl]
    have hlt := ravel_lt (validIdx_coords ha)
    rw [g4 a hin, hc, hco, ravel_cons, Nat.mul_zero, Nat.zero_add, List.getD_eq_getElem?_getD, List.getD_eq_getElem?_getD,
      List.getElem?_append_left (by omega)]
  · have hin : InDom ((N.bound, [N.low, N.up]) :: d) a := by
      intro p hp
      rcases List.mem_cons.1 hp with rfl | hp
      · simp [hl]
      · exact ha p hp
    have hco : coords ((N.bound, [N.low, N.up]) :: d) a = 1 :: coords d a := by
      simp only [coords, List.map_cons, hl]
      congr 1
      rw [List.idxOf_cons_ne _ N.ne]; simp
    rw [g4 a hin, hc, hco, ravel_cons, List.getD_eq_getElem?_getD, List.getD_eq_getElem?_getD,
      List.getElem?_append_right (by omega)]
    congr 2
    omega

end

end Verif
