import Verif.DomainUtils

/-!
# n-dimensional arrays: the numpy operations used by bcause

An array is its shape plus its row-major (C order) list of elements.  `get` returns a
default outside the shape; arrays that satisfy `WF` are never read there by the
modelled code.
-/

set_option linter.unusedSectionVars false
set_option linter.unusedSimpArgs false

namespace Verif

/-- `numpy.ndarray` in C order. -/
structure NdArray (α : Type) where
  shape : List Nat
  flat : List α
  deriving DecidableEq, Repr

namespace NdArray

variable {α β γ : Type}

/-- The number of elements agrees with the shape (true of every numpy array). -/
def WF (a : NdArray α) : Prop := a.flat.length = a.shape.prod

/-- `a[i1,…,in]` with integer indices -/
def get [Inhabited α] (a : NdArray α) (idx : List Nat) : α :=
  a.flat.getD (ravel a.shape idx) default

/-- The array of a given shape whose element at `idx` is `f idx`. -/
def build (shape : List Nat) (f : List Nat → α) : NdArray α :=
  ⟨shape, (idxSpace shape).map f⟩

theorem wf_build (shape : List Nat) (f : List Nat → α) : (build shape f).WF := by
  simp [WF, build]

@[simp] theorem shape_build (shape : List Nat) (f : List Nat → α) : (build shape f).shape = shape :=
  rfl

theorem get_build [Inhabited α] {shape idx : List Nat} (f : List Nat → α) (h : ValidIdx shape idx) :
    (build shape f).get idx = f idx := by
  simp [get, build, List.getD_eq_getElem?_getD, idxSpace_getElem? h]

theorem build_get [Inhabited α] {a : NdArray α} (h : a.WF) : build a.shape a.get = a := by
  cases a with
  | mk shape flat =>
    simp only [build, NdArray.mk.injEq, true_and]
    have : (idxSpace shape).map (get ⟨shape, flat⟩)
        = ((idxSpace shape).map (ravel shape)).map (fun i => flat.getD i default) := by
      rw [List.map_map]; rfl
    rw [this, map_ravel_idxSpace]
    have hl : flat.length = shape.prod := h
    refine List.ext_getElem (by simp [hl]) ?_
    intro i h1 h2
    simp [List.getD_eq_getElem?_getD, h2]

theorem ext_get [Inhabited α] {a b : NdArray α} (ha : a.WF) (hb : b.WF) (hs : a.shape = b.shape)
    (h : ∀ idx, ValidIdx a.shape idx → a.get idx = b.get idx) : a = b := by
  rw [← build_get ha, ← build_get hb, ← hs, build, build]
  congr 1
  refine List.map_congr_left fun idx hi => h idx (mem_idxSpace.1 hi)

/-! ### Reductions over axes -/

/-- Components of `l` whose mask bit is `b`. -/
def sel {ι : Type} (b : Bool) : List Bool → List ι → List ι
  | m :: ms, x :: xs => if m = b then x :: sel b ms xs else sel b ms xs
  | _, _ => []

/-- Interleaves kept (`false`) and removed (`true`) components following the mask. -/
def weave {ι : Type} : List Bool → List ι → List ι → List ι
  | false :: ms, k :: ks, rs => k :: weave ms ks rs
  | true :: ms, ks, r :: rs => r :: weave ms ks rs
  | _, _, _ => []

/-- `np.sum(a, axis=axes)` and `np.max(a, axis=axes)` with `f` the reduction of the
list of elements (numpy removes the reduced axes). -/
def reduceAxes [Inhabited α] (f : List α → β) (a : NdArray α) (axes : List Nat) : NdArray β :=
  let mask := (List.range a.shape.length).map (fun i => decide (i ∈ axes))
  build (sel false mask a.shape) fun k =>
    f ((idxSpace (sel true mask a.shape)).map fun r => a.get (weave mask k r))

/-! ### `np.repeat` followed by `np.reshape` -/

/-- `np.reshape(np.repeat(a, prod(extra)), shape(a) + extra)`
(`bcause/factors/values/numpyops.py:79`). -/
def repeatReshape (a : NdArray α) (extra : List Nat) : NdArray α :=
  ⟨a.shape ++ extra, a.flat.flatMap (List.replicate extra.prod)⟩

/-- `np.moveaxis(a, range(a.ndim), dest)`: old axis `i` becomes axis `dest[i]`. -/
def moveaxis [Inhabited α] (a : NdArray α) (dest : List Nat) : NdArray α :=
  build ((List.range a.shape.length).map fun p => a.shape.getD (dest.idxOf p) 0)
    fun idx => a.get (dest.map fun q => idx.getD q 0)

/-! ### Elementwise binary operations with broadcasting -/

/-- Broadcast of two axis lengths. -/
def bdim (m n : Nat) : Option Nat :=
  if m = n then some m else if m = 1 then some n else if n = 1 then some m else none

/-- Broadcast of two shapes with the same number of axes (the only case that occurs:
both operands have been extended to the same variables). -/
def bshape : List Nat → List Nat → Option (List Nat)
  | [], [] => some []
  | m :: ms, n :: ns => do
      let k ← bdim m n
      let ks ← bshape ms ns
      return k :: ks
  | _, _ => none

/-- Index into an operand whose length-one axes are broadcast. -/
def clip (shape idx : List Nat) : List Nat :=
  List.zipWith (fun d i => if d = 1 then 0 else i) shape idx

/-- `op(a, b)` elementwise with numpy broadcasting; shapes that cannot be broadcast
raise `ValueError`. -/
def zipWithB [Inhabited α] [Inhabited β] (op : α → β → γ) (a : NdArray α) (b : NdArray β) :
    Py (NdArray γ) :=
  match bshape a.shape b.shape with
  | none => .error .valueError
  | some sh => .ok (build sh fun idx => op (a.get (clip a.shape idx)) (b.get (clip b.shape idx)))

/-! ### Indexing -/

/-- One component of an index tuple: an integer, `slice(None)` or a list of integers. -/
inductive Ix | int (i : Nat) | all | arr (l : List Nat)
  deriving DecidableEq, Repr

def Ix.isAdv : Ix → Bool | .arr _ => true | _ => false
/-- Length of a list index. -/
def Ix.arrLen : Ix → Option Nat | .arr l => some l.length | _ => none
def Ix.isAll : Ix → Bool | .all => true | _ => false

/-- Axis lengths that survive as slices. -/
def sliceDims : List Ix → List Nat → List Nat
  | .all :: is, d :: ds => d :: sliceDims is ds
  | _ :: is, _ :: ds => sliceDims is ds
  | _, _ => []

/-- Coordinates in the source: slices take the next component of `rest`, integers are
fixed, list indices take their `k`-th element. -/
def fill (k : Nat) : List Ix → List Nat → List Nat
  | .all :: is, r :: rs => r :: fill k is rs
  | .all :: is, [] => 0 :: fill k is []
  | .int i :: is, rs => i :: fill k is rs
  | .arr l :: is, rs => l.getD k 0 :: fill k is rs
  | [], _ => []

/-- Are the non-slice components contiguous? -/
def contiguous (items : List Ix) : Bool :=
  ((items.dropWhile (·.isAll)).reverse.dropWhile (·.isAll)).all (fun i => !i.isAll)

/-- `a[tuple(items)]`: basic indexing when there is no list; otherwise advanced
indexing, in which *all* non-slice components are broadcast together into a single new
axis, placed where they were if they are contiguous and first otherwise.
Lists of different lengths raise `IndexError`. -/
def index [Inhabited α] (a : NdArray α) (items : List Ix) : Py (NdArray α) :=
  match items.filterMap Ix.arrLen with
  | [] => .ok (build (sliceDims items a.shape) fun r => a.get (fill 0 items r))
  | n :: ns =>
    if ns.any (· ≠ n) then .error .indexError
    else
      let before := if contiguous items then (items.takeWhile (·.isAll)).length else 0
      let dims := sliceDims items a.shape
      .ok (build (dims.take before ++ n :: dims.drop before) fun idx =>
        a.get (fill (idx.getD before 0) items (idx.take before ++ idx.drop (before + 1))))

/-! ## Lemmas -/

theorem ravel_append {sh1 sh2 i j : List Nat} (h : i.length = sh1.length) :
    ravel (sh1 ++ sh2) (i ++ j) = sh2.prod * ravel sh1 i + ravel sh2 j := by
  induction sh1 generalizing i with
  | nil =>
    have : i = [] := List.length_eq_zero_iff.1 h
    subst this; simp
  | cons c cs ih =>
    cases i with
    | nil => simp at h
    | cons x xs =>
      simp only [List.cons_append, ravel_cons, List.prod_append]
      rw [ih (by simpa using h)]; ring

theorem wf_repeatReshape {a : NdArray α} (h : a.WF) (extra : List Nat) :
    (a.repeatReshape extra).WF := by
  simp [WF, repeatReshape, List.length_flatMap, List.map_const'] at *
  exact Or.inl h

theorem get_repeatReshape [Inhabited α] {a : NdArray α} (h : a.WF) {extra i j : List Nat}
    (hi : ValidIdx a.shape i) (hj : ValidIdx extra j) :
    (a.repeatReshape extra).get (i ++ j) = a.get i := by
  have hlt := ravel_lt hj
  have := getElem?_flatMap_const (f := fun x : α => List.replicate extra.prod x) (P := extra.prod)
    a.flat (by simp) (ravel a.shape i) (ravel extra j) hlt
  simp only [get, repeatReshape, List.getD_eq_getElem?_getD,
    ravel_append (List.Forall₂.length_eq hi), this]
  have hri : ravel a.shape i < a.flat.length := by rw [h]; exact ravel_lt hi
  simp [List.getElem?_eq_getElem hri, hlt]

theorem bshape_self (sh : List Nat) : bshape sh sh = some sh := by
  induction sh with
  | nil => rfl
  | cons c cs ih => simp [bshape, bdim, ih]

theorem clip_valid {sh idx : List Nat} (h : ValidIdx sh idx) : clip sh idx = idx := by
  induction h with
  | nil => rfl
  | @cons i c is cs hi _ ih =>
    simp only [clip, List.zipWith_cons_cons] at ih ⊢
    rw [ih]; congr 1; split <;> omega

theorem zipWithB_same [Inhabited α] [Inhabited β] (op : α → β → γ) {a : NdArray α} {b : NdArray β}
    (h : a.shape = b.shape) :
    zipWithB op a b = .ok (build a.shape fun idx =>
      op (a.get (clip a.shape idx)) (b.get (clip b.shape idx))) := by
  simp [zipWithB, ← h, bshape_self]

theorem sel_append_mask {ι : Type} (b : Bool) (f : ι → Bool) (l : List ι) :
    sel b (l.map f) l = l.filter (fun x => f x = b) := by
  induction l with
  | nil => rfl
  | cons x xs ih => by_cases h : f x = b <;> simp [sel, h, ih]

theorem sel_map {ι κ : Type} (b : Bool) (f : ι → Bool) (g : ι → κ) (l : List ι) :
    sel b (l.map f) (l.map g) = (l.filter (fun x => f x = b)).map g := by
  induction l with
  | nil => rfl
  | cons x xs ih => by_cases h : f x = b <;> simp [sel, h, ih]

theorem weave_filter {ι κ : Type} (f : ι → Bool) (g : ι → κ) (l : List ι) :
    weave (l.map f) ((l.filter (fun x => f x = false)).map g)
      ((l.filter (fun x => f x = true)).map g) = l.map g := by
  induction l with
  | nil => rfl
  | cons x xs ih =>
    by_cases h : f x = true
    · simp [h, weave] at ih ⊢; exact ih
    · have h' : f x = false := by simpa using h
      simp [h', weave] at ih ⊢; exact ih

end NdArray

end Verif
