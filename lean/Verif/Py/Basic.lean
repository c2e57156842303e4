import Mathlib.Data.List.Basic
import Mathlib.Data.List.Nodup
import Mathlib.Data.List.Forall2
import Mathlib.Algebra.BigOperators.Group.List.Basic

/-!
# Python data: exceptions, dicts, `itertools.product`

Exceptions are values.  A python `dict`/`OrderedDict` is an association list in
insertion order.  Nothing here is specific to bcause: these are the language and
standard-library semantics that the modelled functions use.
-/

set_option linter.unusedSectionVars false
set_option linter.unusedSimpArgs false

namespace Verif

/-- Exception classes that the modelled code can raise (the message is dropped). -/
inductive PyErr
  | valueError | keyError | indexError | typeError | attributeError
  | notImplemented | zeroDivision | networkx | nodeNotFound | assertion | stopIteration | recursion
  /-- `OSError` and its subclasses: `FileNotFoundError`, `IsADirectoryError`, `NotADirectoryError` -/
  | osError
  /-- the python call returns something that is not a scalar (numpy sub-array);
  the model stops there -/
  | notScalar
  deriving DecidableEq, Repr

/-- Result of a python call that may raise. -/
abbrev Py (α : Type _) := Except PyErr α

instance {α : Type _} [DecidableEq α] : DecidableEq (Py α) := fun a b =>
  match a, b with
  | .ok x, .ok y => if h : x = y then isTrue (by rw [h]) else isFalse (by intro e; cases e; exact h rfl)
  | .error x, .error y =>
      if h : x = y then isTrue (by rw [h]) else isFalse (by intro e; cases e; exact h rfl)
  | .ok _, .error _ => isFalse (by intro e; cases e)
  | .error _, .ok _ => isFalse (by intro e; cases e)

namespace Dict

variable {κ ν : Type} [DecidableEq κ]

/-- `list(d.keys())` -/
def keys (d : List (κ × ν)) : List κ := d.map Prod.fst

/-- `d.get(k)` -/
def get? : List (κ × ν) → κ → Option ν
  | [], _ => none
  | p :: d, k => if p.1 = k then some p.2 else get? d k

/-- `d[k]`, raising `KeyError` -/
def get (d : List (κ × ν)) (k : κ) : Py ν :=
  match get? d k with
  | some v => .ok v
  | none => .error .keyError

/-- `d[k] = v`: in place when the key exists, appended otherwise -/
def set (d : List (κ × ν)) (k : κ) (v : ν) : List (κ × ν) :=
  if k ∈ keys d then d.map (fun p => if p.1 = k then (p.1, v) else p) else d ++ [(k, v)]

/-- `{**d1, **d2}`: the keys of `d1` keep their position, values of `d2` win -/
def merge (d1 d2 : List (κ × ν)) : List (κ × ν) :=
  d1.map (fun p => (p.1, (get? d2 p.1).getD p.2)) ++ d2.filter (fun p => p.1 ∉ keys d1)

@[simp] theorem keys_nil : keys ([] : List (κ × ν)) = [] := rfl
@[simp] theorem keys_cons (p : κ × ν) (d) : keys (p :: d) = p.1 :: keys d := rfl
@[simp] theorem keys_append (d e : List (κ × ν)) : keys (d ++ e) = keys d ++ keys e := by
  simp [keys]

theorem getElem_keys (d : List (κ × ν)) (i : Nat) (h : i < (keys d).length) :
    (keys d)[i] = (d[i]'(by simpa [keys] using h)).1 := by simp [keys]

theorem mem_keys {d : List (κ × ν)} {k : κ} : k ∈ keys d ↔ ∃ v, (k, v) ∈ d := by
  simp [keys]

theorem mem_keys_of_mem {d : List (κ × ν)} {p : κ × ν} (h : p ∈ d) : p.1 ∈ keys d :=
  List.mem_map_of_mem h

theorem get?_eq_none {d : List (κ × ν)} {k : κ} : get? d k = none ↔ k ∉ keys d := by
  induction d with
  | nil => simp [get?]
  | cons p d ih =>
    by_cases h : p.1 = k
    · simp [get?, h]
    · simp [get?, h, ih, Ne.symm h]

theorem get?_isSome {d : List (κ × ν)} {k : κ} : (get? d k).isSome ↔ k ∈ keys d := by
  rw [← not_iff_not]; simp [get?_eq_none]

theorem mem_of_get? {d : List (κ × ν)} {k : κ} {v : ν} (h : get? d k = some v) : (k, v) ∈ d := by
  induction d with
  | nil => simp [get?] at h
  | cons p d ih =>
    by_cases hp : p.1 = k
    · simp only [get?, hp, if_true, Option.some.injEq] at h
      subst h; subst hp; simp
    · simp only [get?, hp, if_false] at h
      exact List.mem_cons_of_mem _ (ih h)

theorem get?_of_mem {d : List (κ × ν)} (hn : (keys d).Nodup) {k : κ} {v : ν}
    (h : (k, v) ∈ d) : get? d k = some v := by
  induction d with
  | nil => simp at h
  | cons p d ih =>
    rw [keys_cons, List.nodup_cons] at hn
    rcases List.mem_cons.1 h with rfl | h
    · simp [get?]
    · have : p.1 ≠ k := by
        rintro rfl; exact hn.1 (mem_keys_of_mem (p := (p.1, v)) h)
      simp [get?, this, ih hn.2 h]

theorem get?_iff_mem {d : List (κ × ν)} (hn : (keys d).Nodup) {k : κ} {v : ν} :
    get? d k = some v ↔ (k, v) ∈ d := ⟨mem_of_get?, get?_of_mem hn⟩

@[simp] theorem get?_append (d e : List (κ × ν)) (k : κ) :
    get? (d ++ e) k = (get? d k).or (get? e k) := by
  induction d with
  | nil => simp [get?]
  | cons p d ih => by_cases h : p.1 = k <;> simp [get?, h, ih]

theorem get?_map_snd {μ : Type} (d : List (κ × ν)) (f : κ → ν → μ) (k : κ) :
    get? (d.map fun p => (p.1, f p.1 p.2)) k = (get? d k).map (f k) := by
  induction d with
  | nil => simp [get?]
  | cons p d ih =>
    by_cases h : p.1 = k
    · subst h; simp [get?]
    · simp [get?, h, ih]

theorem get?_filter_key (d : List (κ × ν)) (q : κ → Prop) [DecidablePred q] (k : κ) :
    get? (d.filter fun p => q p.1) k = if q k then get? d k else none := by
  induction d with
  | nil => simp [get?]
  | cons p d ih =>
    by_cases h : p.1 = k
    · subst h
      by_cases hq : q p.1
      · simp [get?, List.filter_cons, hq]
      · rw [List.filter_cons, if_neg (by simpa using hq), ih]; simp [hq]
    · by_cases hq : q p.1
      · simp [List.filter_cons, hq, get?, h, ih]
      · simp [List.filter_cons, hq, get?, h, ih]

theorem keys_filter_key (d : List (κ × ν)) (q : κ → Prop) [DecidablePred q] :
    keys (d.filter fun p => q p.1) = (keys d).filter (fun k => q k) := by
  simp [keys, List.filter_map, Function.comp_def]

theorem keys_map_snd {μ : Type} (d : List (κ × ν)) (f : κ × ν → μ) :
    keys (d.map fun p => (p.1, f p)) = keys d := by
  simp [keys, Function.comp_def]

theorem keys_merge (d1 d2 : List (κ × ν)) :
    keys (merge d1 d2) = keys d1 ++ (keys d2).filter (fun k => k ∉ keys d1) := by
  rw [merge, keys_append, keys_filter_key d2 (fun k => k ∉ keys d1),
    keys_map_snd d1 (fun p => (get? d2 p.1).getD p.2)]

theorem get?_merge (d1 d2 : List (κ × ν)) (k : κ) :
    get? (merge d1 d2) k = (get? d2 k).or (get? d1 k) := by
  rw [merge, get?_append, get?_filter_key d2 (fun k => k ∉ keys d1),
    get?_map_snd d1 (fun k v => (get? d2 k).getD v)]
  rcases h1 : get? d1 k with _ | v1
  · have : k ∉ keys d1 := get?_eq_none.1 h1
    simp [this]
  · rcases h2 : get? d2 k with _ | v2 <;> simp

theorem nodup_keys_merge {d1 d2 : List (κ × ν)} (h1 : (keys d1).Nodup) (h2 : (keys d2).Nodup) :
    (keys (merge d1 d2)).Nodup := by
  rw [keys_merge, List.nodup_append']
  refine ⟨h1, h2.filter _, ?_⟩
  intro x hx hy
  simp at hy
  exact hy.2 hx

end Dict

/-- `list(itertools.product(*ls))`: last factor fastest. -/
def product {α : Type _} : List (List α) → List (List α)
  | [] => [[]]
  | l :: ls => l.flatMap fun x => (product ls).map (x :: ·)

theorem mem_product {α : Type _} {ls : List (List α)} {xs : List α} :
    xs ∈ product ls ↔ List.Forall₂ (fun x l => x ∈ l) xs ls := by
  induction ls generalizing xs with
  | nil => simp [product]
  | cons l ls ih =>
    cases xs with
    | nil => simp [product]
    | cons x xs => simp [product, ih]

theorem length_product {α : Type _} (ls : List (List α)) :
    (product ls).length = (ls.map List.length).prod := by
  induction ls with
  | nil => simp [product]
  | cons l ls ih =>
    simp [product, List.length_flatMap, ih, Function.comp_def, List.map_const']

theorem product_map {α β : Type _} (f : α → β) (ls : List (List α)) :
    product (ls.map (List.map f)) = (product ls).map (List.map f) := by
  induction ls with
  | nil => simp [product]
  | cons l ls ih =>
    simp [product, ih, List.flatMap_map, List.map_flatMap, Function.comp_def]

theorem nodup_product {α : Type _} {ls : List (List α)} (h : ∀ l ∈ ls, l.Nodup) :
    (product ls).Nodup := by
  induction ls with
  | nil => simp [product]
  | cons l ls ih =>
    rw [product, List.nodup_flatMap]
    have ih := ih (fun l hl => h l (List.mem_cons_of_mem _ hl))
    refine ⟨fun x _ => ih.map (fun a b hab => (List.cons.inj hab).2), ?_⟩
    refine (h l (List.mem_cons_self)).imp ?_
    intro x y hxy
    simp only [Function.onFun, List.disjoint_left, List.mem_map]
    rintro _ ⟨a, _, rfl⟩ ⟨b, _, hb⟩
    exact hxy (List.cons.inj hb).1.symm

section MapM
variable {α β : Type}

/-- `mapM` in `Py` succeeds pointwise. -/
theorem mapM_ok {f : α → Py β} {g : α → β} {l : List α} (h : ∀ x ∈ l, f x = .ok (g x)) :
    l.mapM f = (.ok (l.map g) : Py _) := by
  induction l with
  | nil => rfl
  | cons x l ih =>
    rw [List.mapM_cons, h x List.mem_cons_self,
      ih fun y hy => h y (List.mem_cons_of_mem _ hy)]
    rfl

theorem mapM_eq_ok {f : α → Py β} {l : List α} {r : List β} (h : l.mapM f = .ok r) :
    List.Forall₂ (fun x y => f x = .ok y) l r := by
  induction l generalizing r with
  | nil => simp [pure, Except.pure] at h; subst h; exact .nil
  | cons x l ih =>
    rw [List.mapM_cons] at h
    rcases hx : f x with e | y
    · rw [hx] at h; simp [bind, Except.bind] at h
    · rcases hl : l.mapM f with e | ys
      · rw [hx, hl] at h; simp [bind, Except.bind] at h
      · rw [hx, hl] at h
        simp [bind, Except.bind, pure, Except.pure] at h
        subst h
        exact .cons hx (ih hl)

end MapM

@[simp] theorem py_ok_bind {α β : Type _} (x : α) (f : α → Py β) :
    (Except.ok x >>= f : Py β) = f x := rfl
@[simp] theorem py_error_bind {α β : Type _} (e : PyErr) (f : α → Py β) :
    ((Except.error e : Py α) >>= f : Py β) = .error e := rfl
@[simp] theorem py_pure {α : Type _} (x : α) : (pure x : Py α) = .ok x := rfl
@[simp] theorem py_throw {α : Type _} (e : PyErr) : (throw e : Py α) = .error e := rfl

end Verif
