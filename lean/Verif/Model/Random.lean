import Verif.Model.Intervene
import Verif.Factor.Canonical
import Verif.Util.NormalizeLemmas

/-!
# Models filled at random

`random_deterministic`, `randomize_factors`, `fill_random_equations`, `fill_random_marginals` and
`fill_random_factors`.  What the generator returns is given as an argument.
-/

set_option linter.unusedSectionVars false
set_option linter.unusedSimpArgs false

namespace Verif
variable {V S K : Type} [DecidableEq V] [DecidableEq S] [Field K] [LinearOrder K]

/-- `domainutils.py:73-84` `random_assignment` with variables to iterate over.  `pick s v` is what `np.random.choice`
(line 75) returns for the variable `v` when the iterated variables are in the states `s`; each `s` is visited once. -/
def randomAssignments (d : Dom V Nat) (iter : List V) (pick : Obs V Nat → V → Nat) : Py (List (Obs V Nat)) := do
  let iterDom ← subdomain d iter
  return (assignmentSpace iterDom).map fun s => d.map fun p => (p.1, (Dict.get? s p.1).getD (pick s p.1))

/-- `arrayutils.py:22-26` `set_value`, one index for each dimension: `d[i0][i1]...[ik] = value` -/
def NdArray.setAt {α : Type} (a : NdArray α) (x : α) (idx : List Nat) : Py (NdArray α) :=
  if idx ≠ [] ∧ List.Forall₂ (· < ·) idx a.shape then .ok ⟨a.shape, a.flat.set (ravel a.shape idx) x⟩
  else .error .indexError

/-- `mulitnomial.py:236-241` `random_deterministic`.  Without right variables (`None`), `random_assignment` returns a
dictionary, and `s.values()` is asked of a name. -/
def randomDeterministic (I : StoreImpl V S (Fl K)) (d : Dom V S) (right : Option (List V)) (pick : Obs V Nat → V → Nat) :
    Py (Factor I) :=
  match right with
  | none => .error .attributeError
  | some right => do
    let l ← randomAssignments (toNumericDomains d) right pick
    let data ← l.foldlM (fun (a : NdArray (Fl K)) s => a.setAt (.fin 1) (s.map (·.2)))
      ⟨cards d, List.replicate (cards d).prod (.fin 0)⟩
    Factor.make I d data.flat none (some right)

/-- `domainutils.py:91-92` `var_parents_domain` with `graphutils.py:91-92` `relevat_vars` -/
def varParentsDomain (doms : Dom V S) (g : DiGraph V) (v : V) : Py (Dom V S) := do
  let pa ← g.predecessors v
  subdomain doms (pa ++ [v])

/-- `[v for v in dom.keys() if x != v]` (`cmodel.py:213`, `:220`) -/
def othersOf (d : Dom V S) (x : V) : List V := (Dict.keys d).filter (x ≠ ·)

namespace SCM
variable {I : StoreImpl V S (Fl K)} {L : LabelStore V S}

/-- `cmodel.py:218-221`: one turn of `fill_random_equations` -/
def fillEquation (pick : V → Obs V Nat → V → Nat) (doms : Dom V S) (m : SCM I L) (x : V) : Py (SCM I L) := do
  let d ← varParentsDomain doms m.base.graph x
  let f ← randomDeterministic I d (some (othersOf d x)) (pick x)
  m.setFactor x (some (.multi f))

/-- `cmodel.py:217-221` `fill_random_equations` -/
def fillRandomEquations (pick : V → Obs V Nat → V → Nat) (m : SCM I L) (doms : Dom V S) : Py (SCM I L) :=
  m.endogenous.foldlM (fillEquation pick doms) m

/-- `cmodel.py:224-227`: one turn of `fill_random_marginals` -/
def fillMarginal (draws : V → List (Fl K)) (doms : Dom V S) (m : SCM I L) (u : V) : Py (SCM I L) := do
  let d ← subdomain doms [u]
  let f ← randomMultinomial I d none true ⟨cards d, draws u⟩
  m.setFactor u (some (.multi f))

/-- `cmodel.py:223-227` `fill_random_marginals` -/
def fillRandomMarginals (draws : V → List (Fl K)) (m : SCM I L) (doms : Dom V S) : Py (SCM I L) :=
  m.exogenous.foldlM (fillMarginal draws doms) m

/-- `cmodel.py:229-231` `fill_random_factors` -/
def fillRandomFactors (pick : V → Obs V Nat → V → Nat) (draws : V → List (Fl K)) (m : SCM I L) (doms : Dom V S) :
    Py (SCM I L) := do
  let m ← m.fillRandomEquations pick doms
  m.fillRandomMarginals draws doms

/-- `m.domains` restricted to some variables, each of which must be known: `KeyError` for a name that is not
there, `TypeError` (from `len(None)`) for a variable without states. -/
def knownDomain (m : SCM I L) (vs : List V) : Py (Dom V S) := vs.mapM fun v => do
  let o ← Dict.get m.base.domains v
  match o with
  | some st => .ok (v, st)
  | none => .error .typeError

/-- `cmodel.py:211-214`: one turn of `randomize_factors` -/
def randomizeOne (allowZero : Bool) (draws : V → List (Fl K)) (m : SCM I L) (x : V) : Py (SCM I L) := do
  let pa ← m.base.graph.predecessors x
  let d ← m.knownDomain (pa ++ [x])
  let f ← randomMultinomial I d (some (othersOf d x)) allowZero ⟨cards d, draws x⟩
  m.setFactor x (some (.multi f))

/-- `cmodel.py:209-215` `randomize_factors`; the result is the object itself when `inPlace`. -/
def randomizeFactors (m : SCM I L) (variables_ : List V) (inPlace allowZero : Bool) (draws : V → List (Fl K)) :
    Py (SCM I L) := do
  let m ← if inPlace then .ok m else m.copy
  variables_.foldlM (randomizeOne allowZero draws) m

end SCM

/-- `bnet.py:31-34`: one turn of `randomize_factors` -/
def DagModel.randomizeOne {I : StoreImpl V S (Fl K)} {L : LabelStore V S} (doms : Dom V S) (draws : V → List (Fl K))
    (m : DagModel (AnyFactor I L) V S) (v : V) : Py (DagModel (AnyFactor I L) V S) := do
  let pa ← m.getParents [v]
  let d := doms.filter fun p => p.1 = v ∨ p.1 ∈ pa
  let f ← randomMultinomial I d (some pa) true ⟨cards d, draws v⟩
  m.setFactor v (some (.multi f))

/-- `bnet.py:30-34` `BayesianNetwork.randomize_factors` -/
def DagModel.randomizeFactors {I : StoreImpl V S (Fl K)} {L : LabelStore V S} (m : DagModel (AnyFactor I L) V S)
    (doms : Dom V S) (draws : V → List (Fl K)) : Py (DagModel (AnyFactor I L) V S) :=
  m.graph.nodes.foldlM (DagModel.randomizeOne doms draws) m

/-! ### Setting factors one after the other -/

namespace DagModel
variable {F : Type} [FactorLike F V S]

/-- The object over the graph `g` whose recorded states, if any, are those of `D`. -/
structure Known (g : DiGraph V) (D : V → List S) (m : DagModel F V S) : Prop where
  graph : m.graph = g
  factors : Dict.keys m.factors = g.nodes
  keys : Dict.keys m.domains = g.nodes
  states : ∀ v st, Dict.get? m.domains v = some (some st) → st = D v

theorem known_init {g : DiGraph V} {D : V → List S} {check : Bool} {m : DagModel F V S} (h : init g check = .ok m) :
    Known g D m := by
  rw [init] at h
  split at h
  · cases h
  · injection h with h
    subst h
    refine ⟨rfl, keys_init _ _, keys_init _ _, fun v st hs => ?_⟩
    have := List.mem_map.1 (Dict.mem_of_get? hs)
    obtain ⟨x, _, e⟩ := this
    injection e with _ e
    cases e

theorem setFactor_known {g : DiGraph V} {D : V → List S} {m : DagModel F V S} (h : Known g D m) {v : V} {f : F}
    (hf : Fits g D v f) :
    ∃ m', m.setFactor v (some f) = .ok m' ∧ Known g D m' ∧ m'.check = m.check ∧
      (∀ w, Dict.get? m'.factors w = if w = v then some (some f) else Dict.get? m.factors w) ∧
      ∀ w st, Dict.get? m.domains w = some (some st) ∨ (w = v ∧ st = D v) → Dict.get? m'.domains w = some (some st) := by
  have hchk : m.checkFactor v f = .ok () := by
    refine checkFactor_ok.2 ⟨by rw [h.graph]; exact hf.node, by rw [h.graph]; exact hf.right, hf.left, fun p hp => ?_⟩
    rcases hd : Dict.get? m.domains p.1 with _ | _ | st
    · rfl
    · rfl
    · rw [h.states _ _ hd, ← hf.dom p hp]
      simp [domFits, SameSet]
  have hget : Dict.get? (FactorLike.dom f) v = some (D v) := by
    obtain ⟨s, hs⟩ := Option.isSome_iff_exists.1 (Dict.get?_isSome.2 hf.mem)
    have := hf.dom _ (Dict.mem_of_get? hs)
    rw [hs]; exact congrArg some this
  have hset : m.setFactor v (some f) = (match Dict.get? m.domains v with
      | some (some _) => .ok { m with factors := Dict.set m.factors v (some f) }
      | _ => do
        let st ← Dict.get (FactorLike.dom f) v
        .ok { m with factors := Dict.set m.factors v (some f), domains := Dict.set m.domains v (some st) }) := by
    rw [setFactor]
    cases hc : m.check with
    | false => rfl
    | true => simp only [if_true, hchk]; rfl
  have hvf : v ∈ Dict.keys m.factors := by rw [h.factors]; exact hf.node
  have hvd : v ∈ Dict.keys m.domains := by rw [h.keys]; exact hf.node
  rcases hd : Dict.get? m.domains v with _ | _ | st
  · exact absurd hvd (Dict.get?_eq_none.1 hd)
  · rw [hd] at hset
    simp only [Dict.get, hget, py_ok_bind] at hset
    refine ⟨_, hset, ⟨h.graph, ?_, ?_, fun w st hw => ?_⟩, rfl, fun w => Dict.get?_set _ _ _ _, fun w st hw => ?_⟩
    · rw [Dict.keys_set_of_mem hvf]; exact h.factors
    · rw [Dict.keys_set_of_mem hvd]; exact h.keys
    · rw [Dict.get?_set] at hw
      split at hw
      · rename_i e; subst e; simpa using hw.symm
      · exact h.states w st hw
    · rw [Dict.get?_set]
      split
      · rename_i e
        rcases hw with hw | hw
        · rw [e, hd] at hw; cases hw
        · rw [hw.2]
      · rename_i e
        exact hw.resolve_right fun hw => e hw.1
  · rw [hd] at hset
    refine ⟨_, hset, ⟨h.graph, ?_, h.keys, h.states⟩, rfl, fun w => Dict.get?_set _ _ _ _, fun w st' hw => ?_⟩
    · rw [Dict.keys_set_of_mem hvf]; exact h.factors
    · rcases hw with hw | hw
      · exact hw
      · rw [hw.1, hw.2]
        show Dict.get? m.domains v = _
        rw [hd, h.states _ _ hd]

/-- A loop that sets a factor for each of the variables `xs`. -/
theorem setLoop {g : DiGraph V} {D : V → List S} (step : DagModel F V S → V → Py (DagModel F V S)) (fac : V → F) (c : Bool)
    (xs : List V) (hf : ∀ x ∈ xs, Fits g D x (fac x))
    (hs : ∀ (m : DagModel F V S), Known g D m → m.check = c → ∀ x ∈ xs, step m x = m.setFactor x (some (fac x)))
    {m : DagModel F V S} (h : Known g D m) (hc : m.check = c) :
    ∃ m', xs.foldlM step m = .ok m' ∧ Known g D m' ∧ m'.check = c ∧
      ∀ w, Dict.get? m'.factors w = if w ∈ xs then some (some (fac w)) else Dict.get? m.factors w := by
  induction xs generalizing m with
  | nil => exact ⟨m, rfl, h, hc, by simp⟩
  | cons x xs ih =>
    obtain ⟨m1, a1, a2, a3, a4, _⟩ := setFactor_known h (hf x List.mem_cons_self)
    obtain ⟨m2, b1, b2, b3, b4⟩ := ih (fun y hy => hf y (List.mem_cons_of_mem _ hy))
      (fun m hm hc y hy => hs m hm hc y (List.mem_cons_of_mem _ hy)) a2 (a3.trans hc)
    refine ⟨m2, ?_, b2, b3, fun w => ?_⟩
    · rw [List.foldlM_cons, hs m h hc x List.mem_cons_self, a1]; exact b1
    · rw [b4, a4]
      by_cases hw : w ∈ xs
      · simp [hw]
      · by_cases hx : w = x
        · subst hx; simp [hw]
        · simp [hw, hx]

end DagModel

/-! ### `random_deterministic` -/

theorem toNumericDomains_cards (d : Dom V S) : cards (toNumericDomains d) = cards d := by
  simp [cards, toNumericDomains, Function.comp_def]

theorem toNumericDomains_keys (d : Dom V S) : Dict.keys (toNumericDomains d) = Dict.keys d := by
  simp [Dict.keys, toNumericDomains, Function.comp_def]

theorem toNumericDomains_get? (d : Dom V S) (v : V) :
    Dict.get? (toNumericDomains d) v = (Dict.get? d v).map fun st => List.range st.length := by
  induction d with
  | nil => rfl
  | cons p d ih =>
    simp only [toNumericDomains, List.map_cons, Dict.get?] at ih ⊢
    split
    · rfl
    · exact ih

/-- The positions of the states of an assignment. -/
def posOf (d : Dom V S) (a : V → S) (v : V) : Nat := (domStates d v).idxOf (a v)

theorem coords_eq_posOf {d : Dom V S} (hd : (Dict.keys d).Nodup) (a : V → S) :
    coords d a = d.map fun p => posOf d a p.1 := by
  refine List.map_congr_left fun p hp => ?_
  rw [posOf, domStates_of_mem hd hp]

theorem forall₂_coords {d : Dom V S} (n : V → Nat) (h : ∀ p ∈ d, n p.1 < p.2.length) :
    List.Forall₂ (· < ·) (d.map fun p => n p.1) (cards d) := by
  rw [cards, List.forall₂_map_left_iff, List.forall₂_map_right_iff, List.forall₂_same]
  exact h

/-- A sequence of writes of the value one. -/
theorem setOnes {d : Dom V S} (hd : d ≠ []) (l : List (Obs V Nat)) (n : Obs V Nat → V → Nat)
    (hl : ∀ s ∈ l, s.map (·.2) = d.map fun p => n s p.1) (hn : ∀ s ∈ l, ∀ p ∈ d, n s p.1 < p.2.length)
    {t : List (Fl K)} (ht : t.length = (cards d).prod) :
    ∃ t', l.foldlM (fun (a : NdArray (Fl K)) s => a.setAt (.fin 1) (s.map (·.2))) ⟨cards d, t⟩ = .ok ⟨cards d, t'⟩ ∧
      t'.length = (cards d).prod ∧
      ∀ i, i < t.length → t'.getD i default = if i ∈ l.map (fun s => ravel (cards d) (d.map fun p => n s p.1)) then .fin 1 else t.getD i default := by
  induction l generalizing t with
  | nil => exact ⟨t, rfl, ht, fun i _ => by simp⟩
  | cons s l ih =>
    have hlt := forall₂_coords (n s) (hn s List.mem_cons_self)
    obtain ⟨t', h1, h2, h3⟩ := ih (fun s hs => hl s (List.mem_cons_of_mem _ hs)) (fun s hs => hn s (List.mem_cons_of_mem _ hs))
      (t := t.set (ravel (cards d) (d.map fun p => n s p.1)) (.fin 1)) (by simpa using ht)
    refine ⟨t', ?_, h2, fun i hi => ?_⟩
    · rw [List.foldlM_cons, hl s List.mem_cons_self, NdArray.setAt, if_pos ⟨by simpa using hd, hlt⟩, py_ok_bind]
      exact h1
    · rw [h3 i (by simpa using hi), List.map_cons]
      by_cases hm : i ∈ l.map (fun s => ravel (cards d) (d.map fun p => n s p.1))
      · rw [if_pos hm, if_pos (List.mem_cons_of_mem _ hm)]
      · rw [if_neg hm]
        by_cases he : i = ravel (cards d) (d.map fun p => n s p.1)
        · rw [if_pos (by simp [he])]
          simp [List.getD, ← he, hi]
        · rw [if_neg (by simp only [List.mem_cons]; exact fun h => h.elim he hm)]
          simp [List.getD, List.getElem?_set, Ne.symm he]

/-- What `random_deterministic` builds: one entry of every column is one. -/
theorem randomDeterministic_ok {I : StoreImpl V S (Fl K)} (hI : I.Lawful) {d : Dom V S} (hd : DomOk d) (hne : d ≠ [])
    {right : List V} (hr : ∀ v ∈ right, v ∈ Dict.keys d) (hrn : right.Nodup) {pick : Obs V Nat → V → Nat}
    (hp : ∀ s, ∀ p ∈ d, p.1 ∉ right → pick s p.1 < p.2.length) :
    ∃ f, randomDeterministic I d (some right) pick = .ok f ∧ f.WF ∧ f.dom = d ∧ f.rightVars = right ∧
      ∀ a, InDom d a → f.sem a = .fin (if ∀ v ∈ Dict.keys d, v ∉ right →
        posOf d a v = pick (right.map fun w => (w, posOf d a w)) v then 1 else 0) := by
  have hkn := hd.keys
  -- the iterated domain
  have hiter : subdomain (toNumericDomains d) right = .ok (right.map fun v => (v, List.range (domStates d v).length)) := by
    refine mapM_ok fun v hv => ?_
    obtain ⟨st, hst⟩ := Dict.mem_keys.1 (hr v hv)
    have hg := Dict.get?_of_mem hkn hst
    rw [Dict.get, toNumericDomains_get?, hg, domStates, hg]
    rfl
  let itDom : Dom V Nat := right.map fun v => (v, List.range (domStates d v).length)
  have hitk : Dict.keys itDom = right := by simp [itDom, Dict.keys, Function.comp_def]
  -- the states of the iterated variables in one turn of the loop
  have hmem : ∀ s ∈ assignmentSpace itDom, Dict.keys s = right ∧
      ∀ v ∈ right, ∃ k, Dict.get? s v = some k ∧ k < (domStates d v).length := by
    intro s hs
    obtain ⟨h1, h2⟩ := mem_assignmentSpace' (by rw [hitk]; exact hrn) hs
    rw [hitk] at h1
    refine ⟨h1, fun v hv => ?_⟩
    obtain ⟨k, hk⟩ := Option.isSome_iff_exists.1 (Dict.get?_isSome.2 (by rw [h1]; exact hv))
    have := h2 (v, List.range (domStates d v).length) (List.mem_map.2 ⟨v, hv, rfl⟩) k hk
    exact ⟨k, hk, by simpa using this⟩
  let n : Obs V Nat → V → Nat := fun s v => (Dict.get? s v).getD (pick s v)
  have hn : ∀ s ∈ assignmentSpace itDom, ∀ p ∈ d, n s p.1 < p.2.length := by
    intro s hs p hpd
    by_cases hv : p.1 ∈ right
    · obtain ⟨k, hk, hlt⟩ := (hmem s hs).2 _ hv
      rw [domStates_of_mem hkn hpd] at hlt
      simp only [n, hk, Option.getD_some]; exact hlt
    · have : Dict.get? s p.1 = none := Dict.get?_eq_none.2 (by rw [(hmem s hs).1]; exact hv)
      simp only [n, this, Option.getD_none]
      exact hp s p hpd hv
  let l : List (Obs V Nat) := (assignmentSpace itDom).map fun s => (toNumericDomains d).map fun p =>
    (p.1, (Dict.get? s p.1).getD (pick s p.1))
  have hlist : randomAssignments (toNumericDomains d) right pick = .ok l := by
    rw [randomAssignments, hiter]; rfl
  -- the loop, reindexed by the states of the iterated variables
  have hfold : l.foldlM (fun (a : NdArray (Fl K)) s => a.setAt (.fin 1) (s.map (·.2)))
      ⟨cards d, List.replicate (cards d).prod (.fin 0)⟩ =
      ((assignmentSpace itDom).map fun s => d.map fun p => (p.1, n s p.1)).foldlM
        (fun (a : NdArray (Fl K)) s => a.setAt (.fin 1) (s.map (·.2))) ⟨cards d, List.replicate (cards d).prod (.fin 0)⟩ := by
    congr 1
    refine List.map_congr_left fun s _ => ?_
    simp only [toNumericDomains, List.map_map]
    rfl
  obtain ⟨t', h1, h2, h3⟩ := setOnes (K := K) hne ((assignmentSpace itDom).map fun s => d.map fun p => (p.1, n s p.1))
    (fun s v => (Dict.get? s v).getD 0)
    (by
      intro s hs
      obtain ⟨s', _, rfl⟩ := List.mem_map.1 hs
      rw [List.map_map]
      refine List.map_congr_left fun p hpd => ?_
      show n s' p.1 = (Dict.get? (d.map fun p => (p.1, n s' p.1)) p.1).getD 0
      rw [Dict.get?_of_mem (v := n s' p.1) (by simpa [Dict.keys, Function.comp_def] using hkn) (List.mem_map.2 ⟨p, hpd, rfl⟩)]
      rfl)
    (by
      intro s hs p hpd
      obtain ⟨s', hs', rfl⟩ := List.mem_map.1 hs
      rw [Dict.get?_of_mem (v := n s' p.1) (by simpa [Dict.keys, Function.comp_def] using hkn) (List.mem_map.2 ⟨p, hpd, rfl⟩)]
      exact hn s' hs' p hpd)
    (t := List.replicate (cards d).prod (.fin 0)) (by simp)
  rw [← hfold] at h1
  obtain ⟨f, f1, f2, f3, f4, f5⟩ := Factor.make_ok hI (left := none) (right := some right) (r := right) hd h2 rfl
  refine ⟨f, ?_, f2, f3, f4, fun a ha => ?_⟩
  · rw [randomDeterministic]
    simp only [hlist, py_ok_bind, h1]
    exact f1
  · rw [f5 a ha]
    have hv := validIdx_coords ha
    have hlt := ravel_lt hv
    rw [h3 _ (by simpa using hlt)]
    have hz : (List.replicate (cards d).prod (Fl.fin (0 : K))).getD (ravel (cards d) (coords d a)) default = .fin 0 := by
      simp [List.getD, hlt]
    rw [hz]
    -- the cell is written exactly when the positions are those drawn
    have hiff : ravel (cards d) (coords d a) ∈ ((assignmentSpace itDom).map fun s => d.map fun p => (p.1, n s p.1)).map
        (fun s => ravel (cards d) (d.map fun p => (Dict.get? s p.1).getD 0)) ↔
        ∀ v ∈ Dict.keys d, v ∉ right → posOf d a v = pick (right.map fun w => (w, posOf d a w)) v := by
      rw [List.map_map, List.mem_map]
      have hrow : ∀ s, (d.map fun p => (Dict.get? (d.map fun p => (p.1, n s p.1)) p.1).getD 0) = d.map fun p => n s p.1 := by
        intro s
        refine List.map_congr_left fun p hpd => ?_
        rw [Dict.get?_of_mem (v := n s p.1) (by simpa [Dict.keys, Function.comp_def] using hkn) (List.mem_map.2 ⟨p, hpd, rfl⟩)]
        rfl
      have hown : ∀ s ∈ assignmentSpace itDom, (∀ v ∈ right, Dict.get? s v = some (posOf d a v)) →
          s = right.map fun w => (w, posOf d a w) := by
        intro s hs h
        have hk := (hmem s hs).1
        have : s = (Dict.keys s).map fun w => (w, posOf d a w) := by
          rw [Dict.keys, List.map_map]
          conv_lhs => rw [← List.map_id s]
          refine List.map_congr_left fun q hq => ?_
          have h4 := Dict.get?_of_mem (by rw [hk]; exact hrn) (show (q.1, q.2) ∈ s from hq)
          rw [h q.1 (by rw [← hk]; exact Dict.mem_keys_of_mem hq)] at h4
          injection h4 with h4
          simp [h4]
        rw [this, hk]
      constructor
      · rintro ⟨s, hs, he⟩ v hvd hvr
        simp only [Function.comp, hrow] at he
        have he := ravel_injOn (forall₂_coords (n s) (hn s hs)) hv he
        rw [coords_eq_posOf hkn] at he
        have heq : ∀ p ∈ d, n s p.1 = posOf d a p.1 := List.map_inj_left.1 he
        have hs' := hown s hs fun w hw => by
          obtain ⟨k, hk, _⟩ := (hmem s hs).2 w hw
          obtain ⟨st, hst⟩ := Dict.mem_keys.1 (hr w hw)
          have := heq _ hst
          simp only [n, hk, Option.getD_some] at this
          rw [hk, this]
        obtain ⟨st, hst⟩ := Dict.mem_keys.1 hvd
        have := heq _ hst
        have hno : Dict.get? s v = none := Dict.get?_eq_none.2 (by rw [(hmem s hs).1]; exact hvr)
        simp only [n, hno, Option.getD_none] at this
        rw [← this, hs']
      · intro h
        have hin : InDom itDom (posOf d a) := by
          intro p hpi
          obtain ⟨v, hv, rfl⟩ := List.mem_map.1 hpi
          obtain ⟨st, hst⟩ := Dict.mem_keys.1 (hr v hv)
          simp only [List.mem_range, posOf]
          have := ha _ hst
          rw [domStates_of_mem hkn hst]
          exact List.idxOf_lt_length_of_mem this
        refine ⟨itDom.map fun p => (p.1, posOf d a p.1), List.mem_of_getElem? (assignmentSpace_getElem? hin), ?_⟩
        simp only [Function.comp, hrow]
        rw [coords_eq_posOf hkn]
        congr 1
        refine List.map_congr_left fun p hpd => ?_
        have hs0 : (itDom.map fun p => (p.1, posOf d a p.1)) = right.map fun w => (w, posOf d a w) := by
          simp [itDom, Function.comp_def]
        rw [hs0]
        by_cases hv : p.1 ∈ right
        · have : Dict.get? (right.map fun w => (w, posOf d a w)) p.1 = some (posOf d a p.1) :=
            Dict.get?_of_mem (by simpa [Dict.keys, Function.comp_def] using hrn) (List.mem_map.2 ⟨p.1, hv, rfl⟩)
          simp only [n, this, Option.getD_some]
        · have : Dict.get? (right.map fun w => (w, posOf d a w)) p.1 = none :=
            Dict.get?_eq_none.2 (by simpa [Dict.keys, Function.comp_def] using hv)
          simp only [n, this, Option.getD_none]
          exact (h p.1 (Dict.mem_keys_of_mem hpd) hv).symm
    by_cases hc : ∀ v ∈ Dict.keys d, v ∉ right → posOf d a v = pick (right.map fun w => (w, posOf d a w)) v
    · rw [if_pos (hiff.2 hc), if_pos hc]
    · rw [if_neg (fun h => hc (hiff.1 h)), if_neg hc]

end Verif
