import Verif.Py.Basic
import Mathlib.Tactic.Ring
import Mathlib.Algebra.BigOperators.Ring.List

/-!
# `bcause/util/domainutils.py` and the row-major index calculus
-/

set_option linter.unusedSectionVars false
set_option linter.unusedSimpArgs false

namespace Verif

/-- A domain `{variable: [states]}` (an insertion-ordered dict). -/
abbrev Dom (V S : Type) := List (V × List S)
/-- A scalar observation `{variable: state}`. -/
abbrev Obs (V S : Type) := List (V × S)

variable {V S : Type} [DecidableEq V] [DecidableEq S]

/-- `bcause/util/domainutils.py:10-11` `state_space` -/
def stateSpace (dom : Dom V S) : List (List S) := product (dom.map Prod.snd)

/-- `bcause/util/domainutils.py:13-14` `assingment_space` -/
def assignmentSpace (dom : Dom V S) : List (Obs V S) :=
  (stateSpace dom).map fun s => (Dict.keys dom).zip s

/-- Cardinalities, `bcause/factors/values/store.py:48-50`. -/
def cards (dom : Dom V S) : List Nat := dom.map fun p => p.2.length

/-- `bcause/util/domainutils.py:28-30` `steps`, on the list of cardinalities:
`[prod(card[i+1:]) for i in range(len(card))]`. -/
def steps (card : List Nat) : List Nat :=
  (List.range card.length).map fun i => (card.drop (i + 1)).foldl (· * ·) 1

/-- `np.where(np.array(states) == s)[0][0]`: position of the first occurrence,
`IndexError` when there is none.  Used in `domainutils.py:46-47` and
`numpystore.py:42`, `numpyops.py:112-116`. -/
def stateIdx (d : List S) (s : S) : Py Nat :=
  if s ∈ d then .ok (d.idxOf s) else .error .indexError

/-- `bcause/util/domainutils.py:39-43` `restrict_domain` -/
def restrictDomain {S : Type} (dom : Dom V S) (obs : Obs V S) : Dom V S :=
  obs.foldl (fun d p => Dict.set d p.1 [p.2]) dom

/-- `bcause/util/domainutils.py:46-47` `values_to_coord` -/
def valuesToCoord (dom : Dom V S) (obs : Obs V S) : Py (Obs V Nat) :=
  (obs.filter fun p => p.1 ∈ Dict.keys dom).mapM fun p => do
    let d ← Dict.get dom p.1
    let i ← stateIdx d p.2
    return (p.1, i)

/-- `bcause/util/domainutils.py:50-51` `to_numeric_domains` -/
def toNumericDomains (dom : Dom V S) : Dom V Nat :=
  dom.map fun p => (p.1, List.range p.2.length)

/-- The observation re-listed in domain order, `domainutils.py:57`. -/
def domainOrdered (dom : Dom V S) (obs : Obs V S) : Obs V S :=
  dom.filterMap fun p => (Dict.get? obs p.1).map fun s => (p.1, s)

/-- `sum([x*y for x,y in zip(S,c)])` -/
def dot (xs ys : List Nat) : Nat := (List.zipWith (· * ·) xs ys).sum

/-- `bcause/util/domainutils.py:54-60` `index_iterator`/`index_list`
(the generator is modelled by the list of what it yields). -/
def indexList (dom : Dom V S) (obs : Obs V S) : Py (List Nat) := do
  let S := steps (cards dom)
  let obs := domainOrdered dom obs
  let coord ← valuesToCoord dom obs
  let C := stateSpace (restrictDomain (toNumericDomains dom) coord)
  return C.map (dot S)

/-! ## Lemmas -/

theorem foldl_mul_one (l : List Nat) : l.foldl (· * ·) 1 = l.prod := by
  rw [List.prod_eq_foldl]

@[simp] theorem steps_nil : steps [] = [] := rfl
@[simp] theorem steps_cons (c : Nat) (cs : List Nat) : steps (c :: cs) = cs.prod :: steps cs := by
  simp [steps, List.range_succ_eq_map, Function.comp_def, foldl_mul_one]

@[simp] theorem length_steps (cs : List Nat) : (steps cs).length = cs.length := by simp [steps]

@[simp] theorem dot_nil (ys : List Nat) : dot [] ys = 0 := by simp [dot]
@[simp] theorem dot_cons (x y : Nat) (xs ys : List Nat) :
    dot (x :: xs) (y :: ys) = x * y + dot xs ys := by simp [dot]

/-- Row-major flat index of a coordinate vector. -/
def ravel (shape idx : List Nat) : Nat := dot (steps shape) idx

@[simp] theorem ravel_nil (idx) : ravel [] idx = 0 := by simp [ravel]
@[simp] theorem ravel_cons (c i : Nat) (cs is : List Nat) :
    ravel (c :: cs) (i :: is) = cs.prod * i + ravel cs is := by simp [ravel]

/-- A coordinate vector is within a shape. -/
abbrev ValidIdx (shape idx : List Nat) : Prop := List.Forall₂ (· < ·) idx shape

theorem ravel_lt {shape idx : List Nat} (h : ValidIdx shape idx) : ravel shape idx < shape.prod := by
  induction h with
  | nil => simp
  | @cons i c is cs hi _ ih =>
    rw [ravel_cons, List.prod_cons]
    calc cs.prod * i + ravel cs is < cs.prod * i + cs.prod := by omega
      _ = cs.prod * (i + 1) := by ring
      _ ≤ cs.prod * c := Nat.mul_le_mul_left _ hi
      _ = c * cs.prod := by ring

theorem getElem?_flatMap_const {α β : Type _} {f : α → List β} {P : Nat} (l : List α)
    (h : ∀ x ∈ l, (f x).length = P) (i j : Nat) (hj : j < P) :
    (l.flatMap f)[P * i + j]? = l[i]?.bind fun x => (f x)[j]? := by
  induction l generalizing i with
  | nil => simp
  | cons x l ih =>
    have hx := h x List.mem_cons_self
    have hl := fun y hy => h y (List.mem_cons_of_mem _ hy)
    rw [List.flatMap_cons]
    cases i with
    | zero =>
      rw [List.getElem?_append_left (by simpa [hx] using hj)]; simp
    | succ i =>
      rw [List.getElem?_append_right (by rw [hx, Nat.mul_succ]; omega)]
      have : P * (i + 1) + j - (f x).length = P * i + j := by rw [hx, Nat.mul_succ]; omega
      rw [this, ih hl]; simp

/-- The element of a cartesian product at the row-major position of first occurrences. -/
theorem product_getElem? {α : Type _} [DecidableEq α] {ls : List (List α)} {xs : List α}
    (h : List.Forall₂ (fun x l => x ∈ l) xs ls) :
    (product ls)[ravel (ls.map List.length) (List.zipWith (fun x l => l.idxOf x) xs ls)]?
      = some xs := by
  induction h with
  | nil => simp [product]
  | @cons x l xs ls hx hxs ih =>
    simp only [List.map_cons, List.zipWith_cons_cons, ravel_cons, product]
    have hlen : ∀ y ∈ l, ((product ls).map (y :: ·)).length = (ls.map List.length).prod := by
      intro y _; rw [List.length_map, length_product]
    have hlt : ravel (ls.map List.length) (List.zipWith (fun x l => l.idxOf x) xs ls)
        < (ls.map List.length).prod := by
      rw [← length_product]
      by_contra hcon
      rw [List.getElem?_eq_none (by omega)] at ih
      cases ih
    rw [getElem?_flatMap_const l hlen _ _ hlt, List.getElem?_idxOf hx]
    simp [ih]

/-- All coordinate vectors of a shape, in row-major order. -/
def idxSpace (shape : List Nat) : List (List Nat) := product (shape.map List.range)

theorem mem_idxSpace {shape idx : List Nat} : idx ∈ idxSpace shape ↔ ValidIdx shape idx := by
  rw [idxSpace, mem_product]
  constructor
  · intro h
    rw [List.forall₂_map_right_iff] at h
    exact h.imp fun _ _ h => by simpa using h
  · intro h
    rw [List.forall₂_map_right_iff]
    exact h.imp fun _ _ h => by simpa using h

@[simp] theorem length_idxSpace (shape : List Nat) : (idxSpace shape).length = shape.prod := by
  simp [idxSpace, length_product, Function.comp_def]

theorem idxOf_range {i n : Nat} (h : i < n) : (List.range n).idxOf i = i := by
  have h1 := List.idxOf_lt_length_of_mem (l := List.range n) (a := i) (by simpa using h)
  have := List.getElem_idxOf (xs := List.range n) (x := i) h1
  rwa [List.getElem_range] at this

theorem idxSpace_getElem? {shape idx : List Nat} (h : ValidIdx shape idx) :
    (idxSpace shape)[ravel shape idx]? = some idx := by
  have hm := mem_product.1 (mem_idxSpace.2 h)
  have := product_getElem? hm
  rw [List.map_map] at this
  have e1 : List.map (List.length ∘ List.range) shape = shape := by simp [Function.comp_def]
  have e2 : List.zipWith (fun x (l : List Nat) => l.idxOf x) idx (shape.map List.range) = idx := by
    clear this hm e1
    induction h with
    | nil => rfl
    | cons h _ ih => simp [ih, idxOf_range h]
  rw [e1, e2] at this
  exact this

/-- The row-major enumeration numbers the coordinate vectors `0,1,2,…`. -/
theorem map_ravel_idxSpace (shape : List Nat) :
    (idxSpace shape).map (ravel shape) = List.range shape.prod := by
  induction shape with
  | nil => simp [idxSpace, product, List.range_succ]
  | cons c cs ih =>
    have : (idxSpace (c :: cs)).map (ravel (c :: cs))
        = (List.range c).flatMap fun i => (List.range cs.prod).map (cs.prod * i + ·) := by
      simp only [idxSpace, List.map_cons, product, List.map_flatMap, List.map_map,
        Function.comp_def, ravel_cons]
      congr 1; funext i
      rw [← ih, List.map_map]; rfl
    rw [this, List.prod_cons]
    clear this
    induction c with
    | zero => simp
    | succ n ihn =>
      rw [List.range_succ, List.flatMap_append, ihn, Nat.succ_mul, List.range_add]
      simp [Nat.mul_comm]

theorem nodup_idxSpace (shape : List Nat) : (idxSpace shape).Nodup :=
  nodup_product (by simp only [List.mem_map]; rintro l ⟨n, _, rfl⟩; exact List.nodup_range)

theorem ravel_injOn {shape i j : List Nat} (hi : ValidIdx shape i) (hj : ValidIdx shape j)
    (h : ravel shape i = ravel shape j) : i = j := by
  have h1 := idxSpace_getElem? hi
  have h2 := idxSpace_getElem? hj
  rw [h, h2] at h1
  exact (Option.some.inj h1).symm

/-! ### Assignments and coordinates -/

/-- Coordinates of a (total) assignment in a domain. -/
def coords (dom : Dom V S) (a : V → S) : List Nat := dom.map fun p => p.2.idxOf (a p.1)

/-- The assignment gives every variable of the domain one of its states. -/
def InDom (dom : Dom V S) (a : V → S) : Prop := ∀ p ∈ dom, a p.1 ∈ p.2

/-- The observation fixes every variable of `dom` to the state given by `a`. -/
def Covers (dom : Dom V S) (obs : Obs V S) (a : V → S) : Prop :=
  ∀ v ∈ Dict.keys dom, Dict.get? obs v = some (a v)

theorem validIdx_coords {dom : Dom V S} {a : V → S} (h : InDom dom a) :
    ValidIdx (cards dom) (coords dom a) := by
  induction dom with
  | nil => exact .nil
  | cons p d ih =>
    refine .cons ?_ (ih fun q hq => h q (List.mem_cons_of_mem _ hq))
    exact List.idxOf_lt_length_of_mem (h p List.mem_cons_self)

theorem keys_domainOrdered (dom : Dom V S) (obs : Obs V S) :
    Dict.keys (domainOrdered dom obs) = (Dict.keys dom).filter (fun v => v ∈ Dict.keys obs) := by
  induction dom with
  | nil => rfl
  | cons p d ih =>
    simp only [domainOrdered, List.filterMap_cons, Dict.keys_cons] at ih ⊢
    rcases h : Dict.get? obs p.1 with _ | s
    · have : p.1 ∉ Dict.keys obs := Dict.get?_eq_none.1 h
      simp [this, List.filter_cons, ih]
    · have : p.1 ∈ Dict.keys obs := Dict.get?_isSome.1 (by simp [h])
      simp [this, List.filter_cons, ih]

theorem get?_domainOrdered {dom : Dom V S} (obs : Obs V S) (v : V) :
    Dict.get? (domainOrdered dom obs) v = if v ∈ Dict.keys dom then Dict.get? obs v else none := by
  induction dom with
  | nil => rfl
  | cons p d ih =>
    simp only [domainOrdered, List.filterMap_cons, Dict.keys_cons] at ih ⊢
    rcases h : Dict.get? obs p.1 with _ | s
    · by_cases hv : v = p.1
      · subst hv; simp [ih, h]
      · simp [ih, hv]
    · by_cases hv : v = p.1
      · subst hv; simp [h, Dict.get?]
      · simp [Dict.get?, Ne.symm hv, ih, hv]

/-- Positions of a variable's states selected by an observation. -/
def selRange (obs : Obs V S) (p : V × List S) : List Nat :=
  match Dict.get? obs p.1 with
  | none => List.range p.2.length
  | some s => [p.2.idxOf s]

/-- Every observed variable of the domain is observed at one of its states. -/
def ObsOk (dom : Dom V S) (obs : Obs V S) : Prop :=
  ∀ p ∈ dom, ∀ s, Dict.get? obs p.1 = some s → s ∈ p.2

theorem get_dom_of_mem {dom : Dom V S} (hn : (Dict.keys dom).Nodup) {p : V × List S}
    (h : p ∈ dom) : Dict.get dom p.1 = .ok p.2 := by
  have : Dict.get? dom p.1 = some p.2 := Dict.get?_of_mem hn (by simpa using h)
  simp [Dict.get, this]

theorem mem_domainOrdered {dom : Dom V S} {obs : Obs V S} {q : V × S}
    (h : q ∈ domainOrdered dom obs) : ∃ p ∈ dom, p.1 = q.1 ∧ Dict.get? obs p.1 = some q.2 := by
  simp only [domainOrdered, List.mem_filterMap, Option.map_eq_some_iff] at h
  obtain ⟨p, hp, s, hs, rfl⟩ := h
  exact ⟨p, hp, rfl, hs⟩

theorem valuesToCoord_domainOrdered {dom : Dom V S} (hn : (Dict.keys dom).Nodup) {obs : Obs V S}
    (ho : ObsOk dom obs) :
    valuesToCoord dom (domainOrdered dom obs) =
      .ok (dom.filterMap fun p => (Dict.get? obs p.1).map fun s => (p.1, p.2.idxOf s)) := by
  have hfil : (domainOrdered dom obs).filter (fun p => p.1 ∈ Dict.keys dom)
      = domainOrdered dom obs := by
    rw [List.filter_eq_self]
    intro q hq
    obtain ⟨p, hp, h1, _⟩ := mem_domainOrdered hq
    simpa [← h1] using Dict.mem_keys_of_mem hp
  rw [valuesToCoord, hfil]
  have key : ∀ q ∈ domainOrdered dom obs,
      (do let d ← Dict.get dom q.1; let i ← stateIdx d q.2; return (q.1, i) : Py (V × Nat))
        = .ok (q.1, ((Dict.get? dom q.1).getD []).idxOf q.2) := by
    intro q hq
    obtain ⟨p, hp, h1, h2⟩ := mem_domainOrdered hq
    rw [← h1, get_dom_of_mem hn hp]
    have : Dict.get? dom p.1 = some p.2 := Dict.get?_of_mem hn hp
    simp [stateIdx, ho p hp _ h2, this]
  rw [mapM_ok key]
  congr 1
  rw [domainOrdered, List.map_filterMap]
  refine List.filterMap_congr fun p hp => ?_
  have : Dict.get? dom p.1 = some p.2 := Dict.get?_of_mem hn hp
  rcases Dict.get? obs p.1 with _ | s <;> simp [this]

theorem restrictDomain_map {S : Type} {dom : Dom V S} (hn : (Dict.keys dom).Nodup) {obs : Obs V S}
    (ho : (Dict.keys obs).Nodup) (hsub : ∀ k ∈ Dict.keys obs, k ∈ Dict.keys dom) :
    restrictDomain dom obs = dom.map fun p =>
      match Dict.get? obs p.1 with
      | none => p
      | some s => (p.1, [s]) := by
  induction obs generalizing dom with
  | nil => simp [restrictDomain, Dict.get?]
  | cons q obs ih =>
    rw [Dict.keys_cons, List.nodup_cons] at ho
    have hq : q.1 ∈ Dict.keys dom := hsub _ (by simp)
    have e : restrictDomain dom (q :: obs) = restrictDomain (Dict.set dom q.1 [q.2]) obs := rfl
    have hset : Dict.set dom q.1 [q.2]
        = dom.map fun p => (p.1, if p.1 = q.1 then [q.2] else p.2) := by
      rw [Dict.set, if_pos hq]
      refine List.map_congr_left fun p _ => ?_
      split <;> rfl
    have hk : Dict.keys (Dict.set dom q.1 [q.2]) = Dict.keys dom := by
      rw [hset, Dict.keys_map_snd dom (fun p => if p.1 = q.1 then [q.2] else p.2)]
    rw [e, ih (by rw [hk]; exact hn) ho.2 (fun k hk' => by rw [hk]; exact hsub k (by simp [hk'])),
      hset, List.map_map]
    refine List.map_congr_left fun p _ => ?_
    by_cases h : p.1 = q.1
    · have hno : Dict.get? obs p.1 = none := by rw [h]; exact Dict.get?_eq_none.2 ho.1
      simp [Dict.get?, h, hno]
      rw [h] at hno; simp [hno]
    · simp [Dict.get?, Ne.symm h, h]

/-- The flat positions selected by an observation, in closed form. -/
theorem indexList_eq {dom : Dom V S} (hn : (Dict.keys dom).Nodup) {obs : Obs V S}
    (ho : ObsOk dom obs) :
    indexList dom obs = .ok ((product (dom.map (selRange obs))).map (ravel (cards dom))) := by
  have hco : Dict.keys (dom.filterMap fun p =>
      (Dict.get? obs p.1).map fun s => (p.1, p.2.idxOf s)) = Dict.keys (domainOrdered dom obs) := by
    simp only [Dict.keys, domainOrdered, List.map_filterMap]
    refine List.filterMap_congr fun p hp => ?_
    rcases Dict.get? obs p.1 with _ | s <;> simp
  have hkn : Dict.keys (toNumericDomains dom) = Dict.keys dom := by
    simp [toNumericDomains, Dict.keys, Function.comp_def]
  have hget : ∀ v, Dict.get? (dom.filterMap fun p =>
      (Dict.get? obs p.1).map fun s => (p.1, p.2.idxOf s)) v
        = (Dict.get? dom v).bind fun d => (Dict.get? obs v).map fun s => d.idxOf s := by
    intro v
    clear hco hkn ho
    induction dom with
    | nil => rfl
    | cons p d ih =>
      rw [Dict.keys_cons, List.nodup_cons] at hn
      have ih := ih hn.2
      rw [List.filterMap_cons]
      rcases h : Dict.get? obs p.1 with _ | s
      · by_cases hv : p.1 = v
        · subst hv
          simp only [Option.map_none, ih, Dict.get?, if_true, h]
          rw [Dict.get?_eq_none.2 hn.1]; rfl
        · simp [ih, Dict.get?, hv]
      · by_cases hv : p.1 = v
        · subst hv; simp [Dict.get?, h]
        · simp [ih, Dict.get?, hv]
  simp only [indexList, valuesToCoord_domainOrdered hn ho, py_ok_bind, py_pure]
  congr 1
  rw [restrictDomain_map (by rw [hkn]; exact hn)
    (by rw [hco, keys_domainOrdered]; exact hn.filter _)
    (by intro k hk
        rw [hco, keys_domainOrdered, List.mem_filter] at hk
        rw [hkn]; exact hk.1)]
  congr 1
  rw [stateSpace, List.map_map, toNumericDomains, List.map_map]
  congr 1
  refine List.map_congr_left fun p hp => ?_
  have : Dict.get? dom p.1 = some p.2 := Dict.get?_of_mem hn hp
  simp only [Function.comp, hget, this, selRange]
  rcases Dict.get? obs p.1 with _ | s <;> simp

/-- An observed state outside the domain makes `index_iterator` raise `IndexError`. -/
theorem indexList_error {dom : Dom V S} (hn : (Dict.keys dom).Nodup) {obs : Obs V S}
    {p : V × List S} (hp : p ∈ dom) {s : S} (hs : Dict.get? obs p.1 = some s) (hbad : s ∉ p.2) :
    indexList dom obs = .error .indexError := by
  have hmem : (p.1, s) ∈ domainOrdered dom obs := by
    simp only [domainOrdered, List.mem_filterMap, Option.map_eq_some_iff]
    exact ⟨p, hp, s, hs, rfl⟩
  have : ∀ l : Obs V S, (p.1, s) ∈ l → (∀ q ∈ l, q.1 ∈ Dict.keys dom) →
      (l.mapM fun q => do
        let d ← Dict.get dom q.1; let i ← stateIdx d q.2; return (q.1, i) : Py (Obs V Nat))
        = .error .indexError := by
    intro l
    induction l with
    | nil => intro h; simp at h
    | cons q l ih =>
      intro h hall
      obtain ⟨d, hd⟩ := Dict.mem_keys.1 (hall q List.mem_cons_self)
      have hdg : Dict.get dom q.1 = .ok d := get_dom_of_mem hn hd
      rw [List.mapM_cons, hdg]
      by_cases hq : q.2 ∈ d
      · rcases List.mem_cons.1 h with rfl | h
        · exfalso
          have h1 : Dict.get? dom p.1 = some p.2 := Dict.get?_of_mem hn hp
          have h2 : Dict.get? dom p.1 = some d := Dict.get?_of_mem hn hd
          rw [h1] at h2; cases h2
          exact hbad hq
        · rw [ih h fun r hr => hall r (List.mem_cons_of_mem _ hr)]
          simp [stateIdx, hq]
      · simp [stateIdx, hq]
  have hk : ∀ q ∈ domainOrdered dom obs, q.1 ∈ Dict.keys dom := by
    intro q hq
    obtain ⟨r, hr, h1, _⟩ := mem_domainOrdered hq
    rw [← h1]; exact Dict.mem_keys_of_mem hr
  have hfil : (domainOrdered dom obs).filter (fun p => p.1 ∈ Dict.keys dom)
      = domainOrdered dom obs := by
    rw [List.filter_eq_self]; intro q hq; simpa using hk q hq
  have e := this _ hmem hk
  rw [indexList, valuesToCoord, hfil]
  simp only [e]
  rfl

end Verif
