import Verif.Util.Watch
import Mathlib.Algebra.Order.Ring.Defs
import Mathlib.Tactic.NormNum
import Mathlib.Data.List.Pairwise
import Mathlib.Data.List.Induction

/-!
# The stop watch (C120)
-/

set_option linter.unusedSectionVars false
set_option linter.unusedSimpArgs false

namespace Verif.Props
open Verif

variable {T : Type}

/-- The watch was started at `u` and not touched since, except for readings. -/
def Running (calls : List (WatchOp T)) (u : T) : Prop :=
  ∃ before since, calls = before ++ .start u :: since ∧ ∀ c ∈ since, ∃ t, c = .getTime t

/-- What the clock showed during a call. -/
def clock : WatchOp T → T
  | .start t => t
  | .stop t => t
  | .stopPrint t => t
  | .getTime t => t

variable [Ring T]

theorem after_append (calls : List (WatchOp T)) (c : WatchOp T) :
    Watch.after (calls ++ [c]) = (Watch.step (Watch.after calls) c).2 := by
  rw [Watch.after, List.foldl_append]; rfl

/-- The attribute of the class is the time of the start of a running watch. -/
theorem after_iff (calls : List (WatchOp T)) (u : T) : Watch.after calls = some u ↔ Running calls u := by
  induction calls using List.reverseRecOn with
  | nil =>
    constructor
    · intro h; cases h
    · rintro ⟨a, b, h, _⟩; exact absurd h.symm (by simp)
  | append_singleton calls c ih =>
    have key : Running (calls ++ [c]) u ↔ c = .start u ∨ ((∃ t, c = .getTime t) ∧ Running calls u) := by
      constructor
      · rintro ⟨a, b, h, hb⟩
        rcases List.eq_nil_or_concat b with rfl | ⟨b, c', rfl⟩
        · have := List.append_inj' h rfl
          exact .inl (List.singleton_inj.1 this.2)
        · rw [List.concat_eq_append, ← List.cons_append, ← List.append_assoc] at h
          obtain ⟨h1, h2⟩ := List.append_inj' h rfl
          rw [List.singleton_inj.1 h2]
          exact .inr ⟨hb _ (by simp), a, b, h1, fun x hx => hb x (by simp [hx])⟩
      · rintro (rfl | ⟨⟨t, rfl⟩, a, b, rfl, hb⟩)
        · exact ⟨calls, [], rfl, by simp⟩
        · refine ⟨a, b ++ [.getTime t], by simp, fun x hx => ?_⟩
          rcases List.mem_append.1 hx with hx | hx
          · exact hb x hx
          · exact ⟨t, List.mem_singleton.1 hx⟩
    rw [after_append, key]
    cases c with
    | start t => simp [Watch.step]
    | getTime t => simp [Watch.step, ih]
    | stop t =>
      simp only [Watch.step, reduceCtorEq, exists_false, false_and, or_false, iff_false]
      cases h : Watch.after calls <;> simp [Watch.getTime]
    | stopPrint t =>
      simp only [Watch.step, reduceCtorEq, exists_false, false_and, or_false, iff_false]
      cases h : Watch.after calls <;> simp [Watch.getTime]

/-- **C120** after any calls, reading a running watch gives the milliseconds since its last start (and `stop_print` prints them). -/
theorem C120_elapsed {calls : List (WatchOp T)} {u : T} (h : Running calls u) (now : T) :
    (Watch.step (Watch.after calls) (.getTime now)).1 = .ok (.value ((now - u) * 1000)) ∧
    (Watch.step (Watch.after calls) (.stop now)).1 = .ok (.value ((now - u) * 1000)) ∧
    (Watch.step (Watch.after calls) (.stopPrint now)).1 = .ok (.printed ((now - u) * 1000)) := by
  rw [(after_iff calls u).2 h]
  exact ⟨rfl, rfl, rfl⟩

/-- **C120** a watch that is not running cannot be read or stopped: `TypeError`. -/
theorem C120_refused {calls : List (WatchOp T)} (h : ∀ u, ¬ Running calls u) (now : T) :
    (Watch.step (Watch.after calls) (.getTime now)).1 = .error .typeError ∧
    (Watch.step (Watch.after calls) (.stop now)).1 = .error .typeError ∧
    (Watch.step (Watch.after calls) (.stopPrint now)).1 = .error .typeError := by
  have : Watch.after calls = none := by
    cases e : Watch.after calls with
    | none => rfl
    | some u => exact absurd ((after_iff calls u).1 e) (h u)
  rw [this]
  exact ⟨rfl, rfl, rfl⟩

/-- **C120** a reading does not disturb the watch: readings can be left out of any calls. -/
theorem C120_reading (calls : List (WatchOp T)) (t : T) : Watch.after (calls ++ [.getTime t]) = Watch.after calls :=
  after_append calls _

/-- **C120** there is one watch for all users: whoever starts it while it runs makes the other one lose the time of the start, and
after one of them has stopped it the other one cannot. -/
theorem C120_one_watch {calls : List (WatchOp T)} {t : T} {c : WatchOp T} (hc : c = .stop t ∨ c = .stopPrint t) (u v now : T) :
    (Watch.step (Watch.after (calls ++ [.start u, .start v])) (.getTime now)).1 = .ok (.value ((now - v) * 1000)) ∧
    (Watch.step (Watch.after (calls ++ [.start u, .start v, c])) (.stop now)).1 = .error .typeError := by
  constructor
  · exact (C120_elapsed ⟨calls ++ [.start u], [], by simp, by simp⟩ now).1
  · refine (C120_refused (fun w hw => ?_) now).2.1
    have e : calls ++ [.start u, .start v, c] = (calls ++ [.start u, .start v]) ++ [c] := by simp
    rw [e, ← after_iff, after_append] at hw
    rcases hc with rfl | rfl
    · cases h : Watch.after (calls ++ [.start u, .start v]) <;> simp [h, Watch.step, Watch.getTime] at hw
    · cases h : Watch.after (calls ++ [.start u, .start v]) <;> simp [h, Watch.step, Watch.getTime] at hw

/-- **C120** if the clock does not go back, no reading is negative and later readings are not smaller. -/
theorem C120_monotone [LinearOrder T] [IsStrictOrderedRing T] {calls : List (WatchOp T)} {s t x y : T}
    (hs : (calls.map clock ++ [s, t]).Pairwise (· ≤ ·))
    (hx : (Watch.step (Watch.after calls) (.getTime s)).1 = .ok (.value x))
    (hy : (Watch.step (Watch.after (calls ++ [.getTime s])) (.getTime t)).1 = .ok (.value y)) : 0 ≤ x ∧ x ≤ y := by
  rw [C120_reading] at hy
  cases e : Watch.after calls with
  | none => rw [e] at hx; exact absurd hx (by simp [Watch.step, Watch.getTime, Except.map])
  | some u =>
    obtain ⟨a, b, rfl, _⟩ := (after_iff calls u).1 e
    rw [e] at hx hy
    have ex : (s - u) * 1000 = x := by
      have := hx; simpa [Watch.step, Watch.getTime, Except.map] using this
    have ey : (t - u) * 1000 = y := by
      have := hy; simpa [Watch.step, Watch.getTime, Except.map] using this
    rw [List.pairwise_append] at hs
    have hus : u ≤ s := hs.2.2 u (List.mem_map.2 ⟨.start u, by simp, rfl⟩) s (by simp)
    have hst : s ≤ t := by
      have := hs.2.1
      simpa using this
    constructor
    · rw [← ex]; exact mul_nonneg (sub_nonneg.2 hus) (by norm_num)
    · rw [← ex, ← ey]; exact mul_le_mul_of_nonneg_right (sub_le_sub_right hst u) (by norm_num)

/-- A watch that is read, stopped and stopped again. -/
theorem C120_example :
    Running [WatchOp.start (3 : ℤ), .getTime 5] 3 ∧ (∀ u, ¬ Running [WatchOp.start (3 : ℤ), .stop 5] u) ∧
    (Watch.step (Watch.after [.start (3 : ℤ), .getTime 5]) (.stop 7)).1 = .ok (.value 4000) ∧
    (Watch.step (Watch.after [.start (3 : ℤ), .stop 5]) (.stop 7)).1 = .error .typeError := by
  refine ⟨⟨[], [.getTime 5], rfl, by simp⟩, fun u h => ?_, rfl, rfl⟩
  have := (after_iff _ u).2 h
  cases this

end Verif.Props
