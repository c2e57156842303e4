import Verif.Learn.Multi
import Mathlib.Data.List.Perm.Basic
import Mathlib.Data.List.Perm.Subperm
import Mathlib.Data.List.Nodup

/-!
# Inference with several models (C51, C52) and repeated learning (C53)
-/

set_option linter.unusedSectionVars false
set_option linter.unusedSimpArgs false

namespace Verif.Props
open Verif

section
variable {M : Type}

/-! ### C51 -/

/-- What can happen: the caller makes or extends lists, and the methods are called. -/
inductive MCall (M : Type)
  | newList (ms : List M)
  | extend (a : Nat) (ms : List M)
  | new (arg : Option Nat)
  | set (i : Nat) (arg : Option Nat)
  | add (i : Nat) (arg : Option Nat)
  | compile (i : Nat)
  | query (i : Nat)

/-- The state after a call; a refused call changes nothing. -/
def MCall.run (w : MultiWorld M) : MCall M → MultiWorld M
  | .newList ms => w.newList ms
  | .extend a ms => w.extend a ms
  | .new arg => w.new arg
  | .set i arg => w.setModels i arg
  | .add i arg => w.addModels i arg
  | .compile i => match w.compile i with | .ok w => w | .error _ => w
  | .query i => match w.query i with | .ok r => r.1 | .error _ => w

/-- No object but `i` holds the list at address `a`. -/
def Unshared (w : MultiWorld M) (i : Nat) (a : Nat) : Prop := ∀ j o, w.objs[j]? = some o → o.models = a → j = i

/-- The call does not change a list that another object holds, nor does the caller change a list held by an object. -/
def MCall.Safe (w : MultiWorld M) : MCall M → Prop
  | .extend a _ => ∀ o ∈ w.objs, o.models ≠ a
  | .add i _ => ∀ o, w.objs[i]? = some o → Unshared w i o.models
  | _ => True

/-- A history of safe calls. -/
inductive SafeRun : MultiWorld M → MultiWorld M → Prop
  | nil (w) : SafeRun w w
  | cons {w w'} (c : MCall M) (h : c.Safe w) (t : SafeRun (c.run w) w') : SafeRun w w'

/-- Invariant: addresses are in use, and a compiled object has inference objects for the models it holds. -/
def MInv (w : MultiWorld M) : Prop :=
  ∀ o ∈ w.objs, o.models < w.lists.length ∧ (o.compiled = true → o.infs = w.list o.models ∧ w.list o.models ≠ [])

theorem list_append_old {w : MultiWorld M} {l : List (List M)} {a : Nat} (h : a < w.lists.length) :
    ({ w with lists := w.lists ++ l } : MultiWorld M).list a = w.list a := by
  simp [MultiWorld.list, List.getD_eq_getElem?_getD, List.getElem?_append_left h]

theorem MInv.grow {w : MultiWorld M} (h : MInv w) (l : List (List M)) : MInv { w with lists := w.lists ++ l } := by
  intro o ho
  obtain ⟨h1, h2⟩ := h o ho
  rw [list_append_old h1]
  refine ⟨?_, h2⟩
  simp only [List.length_append]
  omega

theorem MInv.orNew {w : MultiWorld M} (h : MInv w) (arg : Option Nat) : MInv (w.orNew arg).1 := by
  cases arg with
  | none => exact h.grow [[]]
  | some a =>
    simp only [MultiWorld.orNew]
    split
    · exact h.grow [[]]
    · exact h

theorem orNew_objs (w : MultiWorld M) (arg : Option Nat) : (w.orNew arg).1.objs = w.objs := by
  cases arg with
  | none => rfl
  | some a => simp only [MultiWorld.orNew]; split <;> rfl

theorem orNew_lt (w : MultiWorld M) (arg : Option Nat) : (w.orNew arg).2 < (w.orNew arg).1.lists.length := by
  cases arg with
  | none => simp [MultiWorld.orNew]
  | some a =>
    simp only [MultiWorld.orNew]
    split
    · simp
    · next h =>
      by_contra hlt
      apply h
      have hle : w.lists.length ≤ a := Nat.le_of_not_lt hlt
      simp [MultiWorld.list, List.getD_eq_getElem?_getD, List.getElem?_eq_none hle]

theorem MInv.upd {w : MultiWorld M} (h : MInv w) {i : Nat} {o : MultiInf M} (h1 : o.models < w.lists.length)
    (h2 : o.compiled = true → o.infs = w.list o.models ∧ w.list o.models ≠ []) : MInv (w.upd i o) := by
  intro o' ho'
  rcases List.mem_or_eq_of_mem_set ho' with hm | rfl
  · exact h o' hm
  · exact ⟨h1, h2⟩

theorem compile_eq {w w' : MultiWorld M} {i : Nat} (h : w.compile i = .ok w') :
    ∃ o, w.objs[i]? = some o ∧ w.list o.models ≠ [] ∧ w' = w.upd i { o with infs := w.list o.models, compiled := true } := by
  rw [MultiWorld.compile] at h
  split at h
  · simp at h
  · next o ho =>
    split at h
    · simp at h
    · next hl =>
      refine ⟨o, ho, fun e => hl (by simp [e]), (Except.ok.inj h).symm⟩

theorem MInv.compile {w w' : MultiWorld M} (hw : MInv w) {i : Nat} (h : w.compile i = .ok w') : MInv w' := by
  obtain ⟨o, ho, hl, rfl⟩ := compile_eq h
  exact hw.upd (hw o (List.mem_of_getElem? ho)).1 fun _ => ⟨rfl, hl⟩

theorem MInv.run {w : MultiWorld M} (hw : MInv w) {c : MCall M} (hc : c.Safe w) : MInv (c.run w) := by
  cases c with
  | newList ms => exact hw.grow [ms]
  | extend a ms =>
    intro o ho
    obtain ⟨h1, h2⟩ := hw o ho
    have hne : a ≠ o.models := Ne.symm (hc o ho)
    have e : (w.extend a ms).list o.models = w.list o.models := by
      simp [MultiWorld.extend, MultiWorld.list, List.getD_eq_getElem?_getD, List.getElem?_set_ne hne]
    refine ⟨by simpa [MultiWorld.extend, MCall.run] using h1, fun hcomp => ?_⟩
    have := h2 hcomp
    rw [← e] at this
    exact this
  | new arg =>
    have h1 := hw.orNew arg
    have h2 := h1.orNew (some (w.orNew arg).2)
    intro o ho
    simp only [MCall.run, MultiWorld.new] at ho
    rcases List.mem_append.1 ho with ho | ho
    · exact h2 o ho
    · rw [List.mem_singleton] at ho
      subst ho
      exact ⟨orNew_lt (w.orNew arg).1 (some (w.orNew arg).2), by simp⟩
  | set i arg =>
    simp only [MCall.run, MultiWorld.setModels]
    split
    · exact hw
    · next o ho => exact (hw.orNew arg).upd (orNew_lt w arg) (by simp)
  | add i arg =>
    simp only [MCall.run, MultiWorld.addModels]
    split
    · exact hw
    · next o ho =>
      have h1 := hw.orNew arg
      intro o' ho'
      simp only [MultiWorld.upd, MultiWorld.extend, orNew_objs] at ho'
      have hom : o.models < (w.orNew arg).1.lists.length :=
        (h1 o (by rw [orNew_objs]; exact List.mem_of_getElem? ho)).1
      obtain ⟨j, hj, rfl⟩ := List.mem_iff_getElem.1 ho'
      by_cases hji : j = i
      · subst hji
        simp only [List.getElem_set_self]
        refine ⟨by simpa [MultiWorld.upd, MultiWorld.extend] using hom, by simp⟩
      · rw [List.getElem_set_ne (Ne.symm hji)]
        have hj' : j < w.objs.length := by simpa using hj
        have hget : w.objs[j]? = some w.objs[j] := List.getElem?_eq_getElem hj'
        have hne : o.models ≠ w.objs[j].models := fun e => hji (hc o ho j _ hget e.symm)
        obtain ⟨g1, g2⟩ := h1 w.objs[j] (by rw [orNew_objs]; exact List.getElem_mem hj')
        have e : (((w.orNew arg).1.extend o.models ((w.orNew arg).1.list (w.orNew arg).2)).upd i { o with compiled := false }).list
            w.objs[j].models = (w.orNew arg).1.list w.objs[j].models := by
          simp [MultiWorld.upd, MultiWorld.extend, MultiWorld.list, List.getD_eq_getElem?_getD, List.getElem?_set_ne hne]
        refine ⟨by simpa [MultiWorld.upd, MultiWorld.extend] using g1, fun hcomp => ?_⟩
        rw [e]; exact g2 hcomp
  | compile i =>
    simp only [MCall.run]
    split
    · next w' h => exact hw.compile h
    · exact hw
  | query i =>
    simp only [MCall.run]
    split
    · next r h =>
      rw [MultiWorld.query] at h
      split at h
      · simp at h
      · split at h
        · rw [← Except.ok.inj h]; exact hw
        · rcases hcp : w.compile i with e | w'
          · simp [hcp] at h
          · simp only [hcp, py_ok_bind] at h
            split at h
            · simp [throw, throwThe, MonadExceptOf.throw] at h
            · rw [← Except.ok.inj h]; exact hw.compile hcp
    · exact hw

/-- The models an object holds. -/
def MultiWorld.current (w : MultiWorld M) (i : Nat) : Option (List M) := (w.objs[i]?).map fun o => w.list o.models

/-- **C51** (partly): in every history in which no list is changed that another object holds, a query is answered by
exactly the models that the object currently holds, and refused when it holds none. -/
theorem C51_current_partial {w : MultiWorld M} (h : SafeRun ⟨[], []⟩ w) {i : Nat} {ms : List M}
    (hm : MultiWorld.current w i = some ms) :
    if ms = [] then w.query i = .error .valueError else ∃ w', w.query i = .ok (w', ms) ∧ MultiWorld.current w' i = some ms := by
  have hinv : MInv w := by
    have : ∀ w0 w1 : MultiWorld M, SafeRun w0 w1 → MInv w0 → MInv w1 := by
      intro w0 w1 hr
      induction hr with
      | nil => exact id
      | cons c hc _ ih => exact fun h0 => ih (h0.run hc)
    exact this _ _ h (by intro o ho; simp at ho)
  rw [MultiWorld.current, Option.map_eq_some_iff] at hm
  obtain ⟨o, ho, rfl⟩ := hm
  have hi : i < w.objs.length := by
    by_contra hlt
    rw [List.getElem?_eq_none (Nat.le_of_not_lt hlt)] at ho; simp at ho
  obtain ⟨_, h2⟩ := hinv o (List.mem_of_getElem? ho)
  by_cases hnil : w.list o.models = []
  · rw [if_pos hnil]
    have hc : ¬ o.compiled = true := fun hc => (h2 hc).2 hnil
    simp [MultiWorld.query, ho, hc, MultiWorld.compile, hnil]
  · rw [if_neg hnil]
    by_cases hc : o.compiled = true
    · refine ⟨w, ?_, by simp [MultiWorld.current, ho]⟩
      simp [MultiWorld.query, ho, hc, (h2 hc).1]
    · have hl : ¬ (w.list o.models).length < 1 := by
        have := List.length_pos_iff.2 hnil; omega
      refine ⟨w.upd i { o with infs := w.list o.models, compiled := true }, ?_, ?_⟩
      · have hcp : w.compile i = .ok (w.upd i { o with infs := w.list o.models, compiled := true }) := by
          simp only [MultiWorld.compile, ho]; rw [if_neg hl]
        simp only [MultiWorld.query, ho]
        rw [if_neg hc, hcp]
        simp [MultiWorld.upd, hi]
      · simp [MultiWorld.current, MultiWorld.upd, hi, MultiWorld.list]

/-- C51 does not hold when two objects are made from the same list: adding a model to the first object adds it to the
models of the second one, which has been compiled and goes on answering without it. -/
theorem C51_shared (m m' : M) (hne : m ≠ m') :
    let w : MultiWorld M := [.newList [m], .newList [m'], .new (some 0), .new (some 0), .compile 1, .add 0 (some 1)].foldl MCall.run ⟨[], []⟩
    MultiWorld.current w 1 = some [m, m'] ∧ ∃ w', w.query 1 = .ok (w', [m]) := by
  refine ⟨rfl, _, rfl⟩

/-- `add_models` changes the list that the caller has passed. -/
theorem C51_caller_list (m m' : M) :
    let w : MultiWorld M := [.newList [m], .newList [m'], .new (some 0), .add 0 (some 1)].foldl MCall.run ⟨[], []⟩
    w.list 0 = [m, m'] := rfl

/-- A safe history: two objects with lists of their own. -/
example : SafeRun (⟨[], []⟩ : MultiWorld Nat) ⟨[[1, 2], [2]], [⟨0, [1], false⟩, ⟨1, [2], true⟩]⟩ := by
  refine .cons (.newList [1]) trivial (.cons (.newList [2]) trivial (.cons (.new (some 0)) trivial (.cons (.new (some 1)) trivial
    (.cons (.compile 0) trivial (.cons (.add 0 (some 1)) ?_ (.cons (.compile 1) trivial (.nil _)))))))
  show ∀ o, ([⟨0, [1], true⟩, ⟨1, [], false⟩] : List (MultiInf Nat))[0]? = some o →
    ∀ j o', ([⟨0, [1], true⟩, ⟨1, [], false⟩] : List (MultiInf Nat))[j]? = some o' → o'.models = o.models → j = 0
  intro o ho j o' hj e
  match j, hj with
  | 0, _ => rfl
  | 1, hj => simp at ho hj; subst ho hj; simp at e
  | j + 2, hj => simp at hj

/-- `EMCC` replaces the models that have been set or added by newly learnt ones at the first query after that: the query
is not answered by the models that were set. -/
theorem C51_emcc (learn : Nat → M) {n : Nat} (hn : 1 ≤ n) (s : Emcc M) (hs : s.numRuns = n) (ms : List M) :
    ∃ s', (s.setModels ms).query learn = .ok (s', (List.range n).map fun k => learn (s.runs + k)) ∧
      s'.models = (List.range n).map fun k => learn (s.runs + k) := by
  have h1 : ¬ n < 1 := by omega
  refine ⟨⟨n, s.runs + n, (List.range n).map fun k => learn (s.runs + k), (List.range n).map fun k => learn (s.runs + k), true⟩, ?_, rfl⟩
  have h2 : n ≠ 0 := by omega
  simp [Emcc.query, Emcc.setModels, Emcc.compile, Emcc.learnModels, Emcc.superCompile, hs, h1, h2]

example : (((Emcc.new 2).setModels [100]).query id).map Prod.snd = .ok [0, 1] := by decide

/-! ### C52 -/

/-- **C52** the generator yields after each batch of `step` models, with an object compiled for all the models learnt so
far; the number of models grows by `step`, no batch is learnt once there are `numRuns` models, and in the end there are. -/
theorem C52_incremental (learn : Nat → M) {step : Nat} (hstep : 1 ≤ step) (s : Emcc M) :
    ∃ ys, s.incremental learn step = .ok ys ∧
      (∀ i y, ys[i]? = some y →
        y.models = s.models ++ (List.range ((i + 1) * step)).map (fun k => learn (s.runs + k)) ∧
        y.infs = y.models ∧ y.compiled = true ∧ s.models.length + i * step < s.numRuns) ∧
      s.numRuns ≤ s.models.length + ys.length * step := by
  have key : ∀ (fuel : Nat) (s : Emcc M), s.numRuns - s.models.length < fuel →
      ∃ ys, Emcc.incrLoop learn step fuel s = .ok ys ∧
      (∀ i y, ys[i]? = some y →
        y.models = s.models ++ (List.range ((i + 1) * step)).map (fun k => learn (s.runs + k)) ∧
        y.infs = y.models ∧ y.compiled = true ∧ s.models.length + i * step < s.numRuns) ∧
      s.numRuns ≤ s.models.length + ys.length * step := by
    intro fuel
    induction fuel with
    | zero => intro s h; omega
    | succ fuel ih =>
      intro s hf
      by_cases hlt : s.models.length < s.numRuns
      · let ms := (List.range step).map fun k => learn (s.runs + k)
        let s' : Emcc M := ⟨s.numRuns, s.runs + step, s.models ++ ms, s.models ++ ms, true⟩
        have hnext : s.incrNext learn step = .ok (some s') := by
          have h1 : ¬ step < 1 := by omega
          have h2 : step ≠ 0 := by omega
          simp [Emcc.incrNext, hlt, Emcc.learnModels, h1, h2, Emcc.addModels, Emcc.superCompile, s', ms]
        have hlen : s'.models.length = s.models.length + step := by simp [s', ms]
        obtain ⟨ys, e, h1, h2⟩ := ih s' (by rw [hlen]; show s.numRuns - _ < _; omega)
        refine ⟨s' :: ys, by simp [Emcc.incrLoop, hnext, e], ?_, ?_⟩
        · intro i y hy
          cases i with
          | zero =>
            simp only [List.getElem?_cons_zero, Option.some.injEq] at hy
            subst hy
            refine ⟨by simp [s', ms], rfl, rfl, by simpa using hlt⟩
          | succ i =>
            rw [List.getElem?_cons_succ] at hy
            obtain ⟨g1, g2, g3, g4⟩ := h1 i y hy
            refine ⟨?_, g2, g3, ?_⟩
            · rw [g1]
              have : (i + 1 + 1) * step = step + (i + 1) * step := by rw [Nat.add_mul (i + 1) 1]; omega
              rw [this, List.range_add, List.map_append, List.map_map, ← List.append_assoc]
              congr 1
              refine List.map_congr_left fun k _ => ?_
              simp [s', Nat.add_assoc]
            · rw [hlen] at g4
              have : (i + 1) * step = step + i * step := by rw [Nat.add_mul]; omega
              rw [this]
              have g4' : s.models.length + step + i * step < s.numRuns := g4
              omega
        · rw [hlen] at h2
          have h2' : s.numRuns ≤ s.models.length + step + ys.length * step := h2
          rw [List.length_cons, Nat.add_mul]
          omega
      · exact ⟨[], by simp [Emcc.incrLoop, Emcc.incrNext, hlt], by simp, by simpa using hlt⟩
  exact key (s.numRuns + 1) s (by omega)

/-- **C52** the final number of models: the requested one when `step` divides what is missing, and otherwise less than
`step` more. -/
theorem C52_final (learn : Nat → M) {step : Nat} (hstep : 1 ≤ step) (s : Emcc M) (hs : s.models.length < s.numRuns) :
    ∃ ys y, s.incremental learn step = .ok ys ∧ ys.getLast? = some y ∧
      s.numRuns ≤ y.models.length ∧ y.models.length < s.numRuns + step ∧
      (step ∣ s.numRuns - s.models.length → y.models.length = s.numRuns) := by
  obtain ⟨ys, h1, h2, h3⟩ := C52_incremental learn hstep s
  have hne : ys ≠ [] := by
    rintro rfl
    simp at h3; omega
  obtain ⟨n, hn⟩ : ∃ n, ys.length = n + 1 := ⟨ys.length - 1, by have := List.length_pos_iff.2 hne; omega⟩
  have hlast : ys.getLast? = ys[n]? := by rw [List.getLast?_eq_getElem?, hn]; rfl
  have hsome : ys[n]? = some (ys[n]'(by omega)) := List.getElem?_eq_getElem _
  obtain ⟨g1, _, _, g4⟩ := h2 n _ hsome
  have hl : (ys[n]'(by omega)).models.length = s.models.length + (n + 1) * step := by rw [g1]; simp
  rw [hn] at h3
  have hexp : (n + 1) * step = n * step + step := by rw [Nat.add_mul]; omega
  refine ⟨ys, _, h1, hlast.trans hsome, ?_, ?_, ?_⟩
  · rw [hl]; exact h3
  · rw [hl, hexp]; omega
  · rintro ⟨k, hk⟩
    rw [hl]
    have hkn : n < k := by
      by_contra hlt
      have := Nat.mul_le_mul_left step (Nat.le_of_not_lt hlt)
      rw [Nat.mul_comm n step] at g4
      omega
    have hkn' : k ≤ n + 1 := by
      by_contra hlt
      have := Nat.mul_le_mul_left step (show n + 2 ≤ k by omega)
      have e : step * (n + 2) = (n + 1) * step + step := by rw [Nat.mul_comm, show n + 2 = (n + 1) + 1 from rfl, Nat.add_mul]; omega
      omega
    have : k = n + 1 := by omega
    subst this
    rw [Nat.mul_comm]; omega

/-- More models than requested are learnt when `step` does not divide their number. -/
example : ((Emcc.new 5).incremental (fun k => k) 3).map (List.map fun y => y.models.length) = .ok [3, 6] := by decide

/-- **C52** a step of zero is refused, when there is something to learn. -/
theorem C52_zero (learn : Nat → M) (s : Emcc M) (hs : s.models.length < s.numRuns) :
    s.incremental learn 0 = .error .valueError := by
  simp [Emcc.incremental, Emcc.incrLoop, Emcc.incrNext, hs, Emcc.learnModels]

/-! ### C53 -/

variable {R : Type} (model : R → M)

/-- Learning objects and models correspond, position by position. -/
def Corresponds (s : Aggregator M R) : Prop := s.models = s.objects.map model

theorem runSeq_fold (rs : List R) (s : Aggregator M R) :
    rs.foldl (fun s r => ⟨s.models ++ [model r], s.objects ++ [r]⟩) s = ⟨s.models ++ rs.map model, s.objects ++ rs⟩ := by
  induction rs generalizing s with
  | nil => simp
  | cons r rs ih => simp [ih]

/-- **C53** (without threads): after any number of runs, the `i`-th learning object is the one that produced the `i`-th
model, and runs accumulate. -/
theorem C53_sequential {s : Aggregator M R} (hs : Corresponds model s) {rs : List R} (hn : 1 ≤ rs.length) :
    ∃ s', s.runSeq model rs = .ok s' ∧ Corresponds model s' ∧ s'.models = s.models ++ rs.map model ∧
      s'.objects = s.objects ++ rs ∧ ∀ i r, s'.objectAt i = .ok r → s'.models[i]? = some (model r) := by
  have h1 : ¬ rs.length < 1 := by omega
  refine ⟨⟨s.models ++ rs.map model, s.objects ++ rs⟩, ?_, ?_, rfl, rfl, ?_⟩
  · rw [Aggregator.runSeq, if_neg h1, runSeq_fold]
  · simp only [Corresponds] at hs ⊢; simp [hs]
  · intro i r hr
    simp only [Corresponds] at hs
    simp only [Aggregator.objectAt] at hr
    split at hr
    · next r' hr' =>
      rw [Except.ok.inj hr] at hr'
      rw [hs, ← List.map_append, List.getElem?_map, hr']; rfl
    · simp at hr

theorem filterMap_range {rs : List R} : (List.range rs.length).filterMap (fun i => rs[i]?) = rs := by
  induction rs with
  | nil => rfl
  | cons r rs ih =>
    rw [List.length_cons, List.range_succ_eq_map, List.filterMap_cons]
    simp only [List.getElem?_cons_zero, List.filterMap_map]
    rw [show ((fun i => (r :: rs)[i]?) ∘ Nat.succ) = fun i => rs[i]? from rfl, ih]

/-- **C53** (partly, with threads): the learning objects and the models are the same up to their order, and they
correspond when the threads finish in order. -/
theorem C53_parallel_partial {s : Aggregator M R} (hs : Corresponds model s) {rs : List R} (hn : 1 ≤ rs.length)
    {order : List Nat} (ho : order.Perm (List.range rs.length)) :
    ∃ s', s.runPar model rs order = .ok s' ∧ s'.models = s.models ++ rs.map model ∧
      s'.objects.Perm (s.objects ++ rs) ∧ s'.models.Perm (s'.objects.map model) ∧
      (order = List.range rs.length → Corresponds model s') := by
  have h1 : ¬ rs.length < 1 := by omega
  have hp : (order.filterMap fun i => rs[i]?).Perm rs := by
    have := ho.filterMap fun i => rs[i]?
    rwa [filterMap_range] at this
  simp only [Corresponds] at hs
  refine ⟨_, by rw [Aggregator.runPar, if_neg h1], rfl, hp.append_left _, ?_, ?_⟩
  · simp only [List.map_append, ← hs]
    exact (hp.map model).symm.append_left _
  · rintro rfl
    simp only [Corresponds, filterMap_range, List.map_append, hs]

/-- C53 does not hold with threads: whenever the first of two threads finishes last, both learning objects are at the
place of the other's model. -/
theorem C53_parallel {r0 r1 : R} (hne : model r0 ≠ model r1) :
    ∃ s, (Aggregator.reset : Aggregator M R).runPar model [r0, r1] [1, 0] = .ok s ∧ ¬ Corresponds model s ∧
      s.objectAt 0 = .ok r1 ∧ s.models[0]? = some (model r0) := by
  refine ⟨⟨[model r0, model r1], [r1, r0]⟩, rfl, ?_, rfl, rfl⟩
  intro h
  simp [Corresponds] at h
  exact hne h.1

/-- **C53** at least one model must be asked for. -/
theorem C53_refused (s : Aggregator M R) (order : List Nat) :
    s.runSeq model [] = .error .valueError ∧ s.runPar model [] order = .error .valueError := ⟨rfl, rfl⟩

example : ((Aggregator.reset : Aggregator Nat Nat).runSeq (· * 10) [1, 2] >>= fun s => s.runSeq (· * 10) [3])
    = .ok ⟨[10, 20, 30], [1, 2, 3]⟩ := by decide

end
end Verif.Props
