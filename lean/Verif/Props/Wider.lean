import Verif.Props.MultiCausal
import Verif.Props.MultiCausalEx

/-!
# C116: bounds of more models contain those of fewer

The bounds of an interval result depend only on which models there are, not on their order or how often they occur; with more
models they are wider, those of two groups of models together are the lesser and the greater of the bounds of the groups, and
conditioning may be done before or after taking the bounds.
-/

set_option linter.unusedSectionVars false
set_option linter.unusedSimpArgs false

namespace Verif.Props
open Verif Causal

section
variable {V S K : Type} [DecidableEq V] [DecidableEq S] [Inhabited S] [Field K] [LinearOrder K]

/-! ### Least and greatest numbers -/

theorem TightBounds.wider {lo hi lo' hi' : K} {xs ys : List K} (h : TightBounds lo hi xs) (h' : TightBounds lo' hi' ys) (hs : ∀ x ∈ xs, x ∈ ys) :
    lo' ≤ lo ∧ lo ≤ hi ∧ hi ≤ hi' :=
  ⟨(h'.2.2 _ (hs _ h.1)).1, (h.2.2 _ h.2.1).1, (h'.2.2 _ (hs _ h.2.1)).2⟩

theorem TightBounds.same {lo hi lo' hi' : K} {xs ys : List K} (h : TightBounds lo hi xs) (h' : TightBounds lo' hi' ys) (hs : ∀ x, x ∈ xs ↔ x ∈ ys) :
    lo = lo' ∧ hi = hi' :=
  have a := h.wider h' fun x hx => (hs x).1 hx
  have b := h'.wider h fun x hx => (hs x).2 hx
  ⟨le_antisymm b.1 a.1, le_antisymm a.2.2 b.2.2⟩

theorem TightBounds.union {lo hi lo' hi' lo'' hi'' : K} {xs ys : List K} (h : TightBounds lo hi xs) (h' : TightBounds lo' hi' ys)
    (h'' : TightBounds lo'' hi'' (xs ++ ys)) : lo'' = min lo lo' ∧ hi'' = max hi hi' := by
  have a := h.wider h'' fun x hx => List.mem_append_left _ hx
  have b := h'.wider h'' fun x hx => List.mem_append_right _ hx
  refine ⟨le_antisymm (le_min a.1 b.1) ?_, le_antisymm ?_ (max_le a.2.2 b.2.2)⟩
  · rcases List.mem_append.1 h''.1 with m | m
    · exact (min_le_left _ _).trans (h.2.2 _ m).1
    · exact (min_le_right _ _).trans (h'.2.2 _ m).1
  · rcases List.mem_append.1 h''.2.1 with m | m
    · exact (h.2.2 _ m).2.trans (le_max_left _ _)
    · exact (h'.2.2 _ m).2.trans (le_max_right _ _)

/-! ### Interval factors -/

variable {I J : StoreImpl V S (Fl K)} (N : BoundNames V S)

/-- `lo` and `hi` are the bounds of the interval factor at a joint state. -/
def BoundsAt (r : IFactor I) (o : Obs V S) (lo hi : K) : Prop :=
  r.getValue ((N.bound, N.low) :: o) = .ok (.fin lo) ∧ r.getValue ((N.bound, N.up) :: o) = .ok (.fin hi)

theorem finiteAt_sub {fs gs : List (Factor J)} {xs ys : List K} {o : Obs V S} (hf : FiniteAt fs xs o) (hg : FiniteAt gs ys o)
    (hs : ∀ f ∈ fs, f ∈ gs) : ∀ x ∈ xs, x ∈ ys := by
  intro x hx
  have h1 : (.ok (Fl.fin x) : Py (Fl K)) ∈ fs.map fun f => f.getValue o := by
    rw [hf]; exact List.mem_map.2 ⟨x, hx, rfl⟩
  obtain ⟨f, hf', e⟩ := List.mem_map.1 h1
  have h2 : (.ok (Fl.fin x) : Py (Fl K)) ∈ gs.map fun f => f.getValue o := List.mem_map.2 ⟨f, hs f hf', e⟩
  rw [hg] at h2
  obtain ⟨y, hy, e'⟩ := List.mem_map.1 h2
  cases e'
  exact hy

theorem fullObs_dictEq {d d' : Dom V S} (h1 : (Dict.keys d).Nodup) (h2 : (Dict.keys d').Nodup) (h : dictEq d d') {o : Obs V S}
    (ho : FullObs d o) : FullObs d' o := fun p hp => ho p (dictEq_mem h1 h2 h hp)

theorem dictEq_symm {d d' : Dom V S} (h1 : (Dict.keys d).Nodup) (h2 : (Dict.keys d').Nodup) (h : dictEq d d') : dictEq d' d :=
  ⟨h.1.symm, fun _ hp => Dict.get?_of_mem h1 (dictEq_mem h1 h2 h hp)⟩

theorem dictEq_trans {d d' d'' : Dom V S} (h : dictEq d d') (h' : dictEq d' d'') : dictEq d d'' :=
  ⟨h.1.trans h'.1, fun p hp => h'.2 (p.1, p.2) (Dict.mem_of_get? (h.2 p hp))⟩

variable (vt wt : VType)

/-- The factors that an interval factor can be made of -/
structure Comparable (fs : List (Factor (storeOf vt : StoreImpl V S (Fl K)))) : Prop where
  wf : ∀ g ∈ fs, g.WF
  dom : ∀ f ∈ fs, ∀ g ∈ fs, dictEq f.dom g.dom
  finite : ∀ g ∈ fs, AllFinite g
  bound : ∀ g ∈ fs, N.bound ∉ g.vars

variable {vt}

theorem Comparable.sub {fs gs : List (Factor (storeOf vt : StoreImpl V S (Fl K)))} (h : Comparable N vt gs) (hs : ∀ f ∈ fs, f ∈ gs) : Comparable N vt fs :=
  ⟨fun g hg => h.wf g (hs g hg), fun f hf g hg => h.dom f (hs f hf) g (hs g hg), fun g hg => h.finite g (hs g hg), fun g hg => h.bound g (hs g hg)⟩

theorem Comparable.envelope {fs : List (Factor (storeOf vt : StoreImpl V S (Fl K)))} (h : Comparable N vt fs) (hne : fs ≠ []) :
    ∃ r, IFactor.fromPrecise N (storeOf wt) fs = .ok r ∧ (∀ f ∈ fs, dictEq f.dom (r.dom N)) ∧
      ∀ f ∈ fs, ∀ o, FullObs f.dom o → ∃ lo hi xs, FiniteAt fs xs o ∧ TightBounds lo hi xs ∧ BoundsAt N r o lo hi := by
  have hJ := storeOf_lawful (V := V) (S := S) (α := Fl K) vt
  cases fs with
  | nil => exact absurd rfl hne
  | cons f fs =>
    obtain ⟨r, r1, r2, _, r4⟩ := C50_envelope N vt wt h.wf (h.dom f (by simp)) h.finite (h.bound f (by simp))
    refine ⟨r, r1, fun g hg => r2 ▸ h.dom g hg f (by simp), fun g hg o ho => ?_⟩
    obtain ⟨lo, hi, xs, a, b, c⟩ := r4 o (fullObs_dictEq ((h.wf g hg).domOk hJ).keys ((h.wf f (by simp)).domOk hJ).keys (h.dom g hg f (by simp)) ho)
    exact ⟨lo, hi, xs, a, b, c⟩

/-- **C116** the bounds of more factors are wider. -/
theorem C116_envelope {fs gs : List (Factor (storeOf vt : StoreImpl V S (Fl K)))} (h : Comparable N vt gs) (hs : ∀ f ∈ fs, f ∈ gs) (hne : fs ≠ []) :
    ∃ r r', IFactor.fromPrecise N (storeOf wt) fs = .ok r ∧ IFactor.fromPrecise N (storeOf wt) gs = .ok r' ∧
      ∀ f ∈ fs, dictEq f.dom (r.dom N) ∧ dictEq f.dom (r'.dom N) ∧
        ∀ o, FullObs f.dom o → ∃ lo hi lo' hi', BoundsAt N r o lo hi ∧ BoundsAt N r' o lo' hi' ∧ lo' ≤ lo ∧ lo ≤ hi ∧ hi ≤ hi' := by
  have hne' : gs ≠ [] := by
    obtain ⟨f, hf⟩ := List.exists_mem_of_ne_nil fs hne
    exact List.ne_nil_of_mem (hs f hf)
  obtain ⟨r, a1, a2, a3⟩ := (h.sub N hs).envelope N wt hne
  obtain ⟨r', b1, b2, b3⟩ := h.envelope N wt hne'
  refine ⟨r, r', a1, b1, fun f hf => ⟨a2 f hf, b2 f (hs f hf), fun o ho => ?_⟩⟩
  obtain ⟨lo, hi, xs, c1, c2, c3⟩ := a3 f hf o ho
  obtain ⟨lo', hi', ys, d1, d2, d3⟩ := b3 f (hs f hf) o ho
  exact ⟨lo, hi, lo', hi', c3, d3, c2.wider d2 (finiteAt_sub c1 d1 hs)⟩

/-- **C116** the order of the factors, and how often each occurs, does not matter. -/
theorem C116_same {fs gs : List (Factor (storeOf vt : StoreImpl V S (Fl K)))} (h : Comparable N vt gs) (hs : ∀ f, f ∈ fs ↔ f ∈ gs) (hne : fs ≠ []) :
    ∃ r r', IFactor.fromPrecise N (storeOf wt) fs = .ok r ∧ IFactor.fromPrecise N (storeOf wt) gs = .ok r' ∧
      ∀ f ∈ fs, ∀ o, FullObs f.dom o → ∃ lo hi, BoundsAt N r o lo hi ∧ BoundsAt N r' o lo hi := by
  have hne' : gs ≠ [] := by
    obtain ⟨f, hf⟩ := List.exists_mem_of_ne_nil fs hne
    exact List.ne_nil_of_mem ((hs f).1 hf)
  obtain ⟨r, a1, a2, a3⟩ := (h.sub N fun f hf => (hs f).1 hf).envelope N wt hne
  obtain ⟨r', b1, b2, b3⟩ := h.envelope N wt hne'
  refine ⟨r, r', a1, b1, fun f hf o ho => ?_⟩
  obtain ⟨lo, hi, xs, c1, c2, c3⟩ := a3 f hf o ho
  obtain ⟨lo', hi', ys, d1, d2, d3⟩ := b3 f ((hs f).1 hf) o ho
  obtain ⟨rfl, rfl⟩ := c2.same d2 fun x => ⟨finiteAt_sub c1 d1 (fun f hf => (hs f).1 hf) x, finiteAt_sub d1 c1 (fun f hf => (hs f).2 hf) x⟩
  exact ⟨lo, hi, c3, d3⟩

/-- **C116** the bounds of two groups of factors together are the lesser and the greater of the bounds of the groups. -/
theorem C116_union {fs gs : List (Factor (storeOf vt : StoreImpl V S (Fl K)))} (h : Comparable N vt (fs ++ gs)) (hf : fs ≠ []) (hg : gs ≠ []) :
    ∃ r r' r'', IFactor.fromPrecise N (storeOf wt) fs = .ok r ∧ IFactor.fromPrecise N (storeOf wt) gs = .ok r' ∧
      IFactor.fromPrecise N (storeOf wt) (fs ++ gs) = .ok r'' ∧
      ∀ f ∈ fs ++ gs, ∀ o, FullObs f.dom o → ∃ lo hi lo' hi', BoundsAt N r o lo hi ∧ BoundsAt N r' o lo' hi' ∧
        BoundsAt N r'' o (min lo lo') (max hi hi') := by
  have hJ := storeOf_lawful (V := V) (S := S) (α := Fl K) vt
  obtain ⟨r, a1, _, a3⟩ := (h.sub N fun f hf => List.mem_append_left _ hf).envelope N wt hf
  obtain ⟨r', b1, _, b3⟩ := (h.sub N fun f hf => List.mem_append_right _ hf).envelope N wt hg
  obtain ⟨r'', e1, _, e3⟩ := h.envelope N wt (by simp [hf])
  have tr : ∀ f ∈ fs ++ gs, ∀ g ∈ fs ++ gs, ∀ o, FullObs f.dom o → FullObs g.dom o := fun f hf g hg o ho =>
    fullObs_dictEq ((h.wf f hf).domOk hJ).keys ((h.wf g hg).domOk hJ).keys (h.dom f hf g hg) ho
  refine ⟨r, r', r'', a1, b1, e1, fun f hfm o ho => ?_⟩
  obtain ⟨f0, hf0⟩ := List.exists_mem_of_ne_nil fs hf
  obtain ⟨g0, hg0⟩ := List.exists_mem_of_ne_nil gs hg
  obtain ⟨lo, hi, xs, c1, c2, c3⟩ := a3 f0 hf0 o (tr f hfm f0 (List.mem_append_left _ hf0) o ho)
  obtain ⟨lo', hi', ys, d1, d2, d3⟩ := b3 g0 hg0 o (tr f hfm g0 (List.mem_append_right _ hg0) o ho)
  obtain ⟨l, u, zs, k1, k2, k3⟩ := e3 f hfm o ho
  have hz : zs = xs ++ ys := by
    have : zs.map (fun x => (.ok (Fl.fin x) : Py (Fl K))) = (xs ++ ys).map fun x => .ok (Fl.fin x) := by
      rw [← k1, List.map_append, List.map_append, c1, d1]
    exact List.map_injective_iff.2 (fun x y e => by cases e; rfl) this
  subst hz
  obtain ⟨rfl, rfl⟩ := c2.union d2 k2
  exact ⟨lo, hi, lo', hi', c3, d3, k3⟩

/-- **C116** conditioning before taking the bounds gives the same as conditioning the bounds. -/
theorem C116_restrict {fs : List (Factor (storeOf vt : StoreImpl V S (Fl K)))} (h : Comparable N vt fs) (hne : fs ≠ []) {obs : Obs V S}
    (ho : ∀ f ∈ fs, ObsOk f.dom obs) (hob : N.bound ∉ Dict.keys obs) :
    ∃ fs' r r' r'', fs.mapM (fun f => f.restrict obs) = .ok fs' ∧ IFactor.fromPrecise N (storeOf wt) fs' = .ok r' ∧
      IFactor.fromPrecise N (storeOf wt) fs = .ok r ∧ r.restrict N obs = .ok r'' ∧
      ∀ f' ∈ fs', dictEq f'.dom (r'.dom N) ∧ dictEq f'.dom (r''.dom N) ∧
        ∀ o, FullObs f'.dom o → ∃ lo hi, BoundsAt N r' o lo hi ∧ BoundsAt N r'' o lo hi := by
  have hJ := storeOf_lawful (V := V) (S := S) (α := Fl K) vt
  obtain ⟨fs', e1, e2⟩ : ∃ fs', fs.mapM (fun f => f.restrict obs) = .ok fs' ∧
      List.Forall₂ (fun f f' => f ∈ fs ∧ f'.WF ∧ f'.dom = f.dom.filter (fun p => p.1 ∉ Dict.keys obs) ∧
        ∀ o, FullObs f'.dom o → ∃ x, f.getValue (obs ++ o) = .ok x ∧ f'.getValue o = .ok x) fs fs' := by
    have : ∀ l : List (Factor (storeOf vt : StoreImpl V S (Fl K))), (∀ f ∈ l, f ∈ fs) → ∃ l', l.mapM (fun f => f.restrict obs) = .ok l' ∧
        List.Forall₂ (fun f f' => f ∈ fs ∧ f'.WF ∧ f'.dom = f.dom.filter (fun p => p.1 ∉ Dict.keys obs) ∧
          ∀ o, FullObs f'.dom o → ∃ x, f.getValue (obs ++ o) = .ok x ∧ f'.getValue o = .ok x) l l' := by
      intro l
      induction l with
      | nil => exact fun _ => ⟨[], rfl, .nil⟩
      | cons f l ih =>
        intro hl
        obtain ⟨l', k1, k2⟩ := ih fun f hf => hl f (List.mem_cons_of_mem _ hf)
        obtain ⟨r, r1, r2, r3, r4⟩ := C07_restrict_conditions vt (h.wf f (hl f (by simp))) (ho f (hl f (by simp)))
        exact ⟨r :: l', by rw [List.mapM_cons, r1, py_ok_bind, k1]; rfl, .cons ⟨hl f (by simp), r2, r3, r4⟩ k2⟩
    exact this fs fun f hf => hf
  have hmem : ∀ f' ∈ fs', ∃ f ∈ fs, f'.WF ∧ f'.dom = f.dom.filter (fun p => p.1 ∉ Dict.keys obs) ∧
      ∀ o, FullObs f'.dom o → ∃ x, f.getValue (obs ++ o) = .ok x ∧ f'.getValue o = .ok x := by
    intro f' hf'
    exact forall₂_right e2 hf'
  have hfilt : ∀ {d d' : Dom V S}, (Dict.keys d).Nodup → (Dict.keys d').Nodup → dictEq d d' →
      dictEq (d.filter fun p => p.1 ∉ Dict.keys obs) (d'.filter fun p => p.1 ∉ Dict.keys obs) := by
    intro d d' h1 h2 hd
    have n1 : (Dict.keys (d.filter fun p => p.1 ∉ Dict.keys obs)).Nodup := by
      rw [Dict.keys_filter_key d (fun v => v ∉ Dict.keys obs)]; exact h1.filter _
    have n2 : (Dict.keys (d'.filter fun p => p.1 ∉ Dict.keys obs)).Nodup := by
      rw [Dict.keys_filter_key d' (fun v => v ∉ Dict.keys obs)]; exact h2.filter _
    have a : ∀ p, p ∈ d.filter (fun p => p.1 ∉ Dict.keys obs) ↔ p ∈ d'.filter (fun p => p.1 ∉ Dict.keys obs) := fun p => by
      rw [List.mem_filter, List.mem_filter]
      exact and_congr_left fun _ => ⟨fun hp => Dict.mem_of_get? (hd.2 p hp), fun hp => dictEq_mem h1 h2 hd hp⟩
    refine ⟨((List.perm_ext_iff_of_nodup (List.Nodup.of_map _ n1) (List.Nodup.of_map _ n2)).2 a).length_eq, fun p hp => ?_⟩
    exact Dict.get?_of_mem n2 ((a p).1 hp)
  have hc : Comparable N vt fs' := by
    refine ⟨fun g hg => ?_, fun f hf g hg => ?_, fun g hg o hoo => ?_, fun g hg hb => ?_⟩
    · obtain ⟨_, _, k, _⟩ := hmem g hg; exact k
    · obtain ⟨f0, hf0, _, k1, _⟩ := hmem f hf
      obtain ⟨g0, hg0, _, k2, _⟩ := hmem g hg
      rw [k1, k2]
      exact hfilt ((h.wf f0 hf0).domOk hJ).keys ((h.wf g0 hg0).domOk hJ).keys (h.dom f0 hf0 g0 hg0)
    · obtain ⟨g0, hg0, _, k1, k2⟩ := hmem g hg
      obtain ⟨x, x1, x2⟩ := k2 o hoo
      obtain ⟨y, y1⟩ := h.finite g0 hg0 (obs ++ o) (FullObs.append (ho g0 hg0) (by rw [← k1]; exact hoo))
      rw [x1] at y1
      cases y1
      exact ⟨y, x2⟩
    · obtain ⟨g0, hg0, _, k1, _⟩ := hmem g hg
      refine h.bound g0 hg0 ?_
      rw [Factor.vars, k1, Dict.keys_filter_key g0.dom (fun v => v ∉ Dict.keys obs)] at hb
      exact (List.mem_filter.1 hb).1
  have hne' : fs' ≠ [] := by rintro rfl; cases e2; exact hne rfl
  obtain ⟨r', b1, b2, b3⟩ := hc.envelope N wt hne'
  obtain ⟨r, a1, a2, a3⟩ := h.envelope N wt hne
  obtain ⟨f, fs0, rfl⟩ := List.exists_cons_of_ne_nil hne
  obtain ⟨r0, r'', c1, c2, c3, c4⟩ := C50_restrict N vt wt h.wf (h.dom f (by simp)) h.finite (h.bound f (by simp)) (ho f (by simp)) hob
  have : r0 = r := by rw [a1] at c1; injection c1 with c1; exact c1.symm
  subst this
  refine ⟨fs', r0, r', r'', e1, b1, a1, c2, fun f' hf' => ⟨b2 f' hf', ?_, fun o hoo => ?_⟩⟩
  · obtain ⟨g0, hg0, _, k1, _⟩ := hmem f' hf'
    rw [c3, k1]
    exact hfilt ((h.wf g0 hg0).domOk hJ).keys ((h.wf f (by simp)).domOk hJ).keys (h.dom g0 hg0 f (by simp))
  · obtain ⟨lo, hi, xs, x1, x2, x3⟩ := b3 f' hf' o hoo
    obtain ⟨g0, hg0, _, k1, _⟩ := hmem f' hf'
    obtain ⟨lo', hi', ys, y1, y2, y3⟩ := a3 g0 hg0 (obs ++ o) (FullObs.append (ho g0 hg0) (by rw [← k1]; exact hoo))
    have hxy : xs = ys := by
      have hall : ∀ (l l' : List (Factor (storeOf vt : StoreImpl V S (Fl K)))), List.Forall₂ (fun f f' => f.getValue (obs ++ o) = f'.getValue o) l l' →
          l.map (fun f => f.getValue (obs ++ o)) = l'.map fun f => f.getValue o := by
        intro l l' hl
        induction hl with
        | nil => rfl
        | cons a _ ih => rw [List.map_cons, List.map_cons, a, ih]
      have e3 : List.Forall₂ (fun f f' => f.getValue (obs ++ o) = f'.getValue o) (f :: fs0) fs' := by
        refine (forall₂_mem e2).imp fun g g' hg => ?_
        obtain ⟨⟨_, _, _, q⟩, hg'⟩ := hg
        obtain ⟨x, q1, q2⟩ := q o (fullObs_dictEq ((hc.wf f' hf').domOk hJ).keys ((hc.wf g' hg').domOk hJ).keys (hc.dom f' hf' g' hg') hoo)
        rw [q1, q2]
      have : xs.map (fun x => (.ok (Fl.fin x) : Py (Fl K))) = ys.map fun x => .ok (Fl.fin x) := by rw [← x1, ← y1, hall _ _ e3]
      exact List.map_injective_iff.2 (fun x y e => by cases e; rfl) this
    subst hxy
    obtain ⟨rfl, rfl⟩ := x2.same y2 fun _ => Iff.rfl
    have hoo' : FullObs (f.dom.filter fun p => p.1 ∉ Dict.keys obs) o := by
      refine fullObs_dictEq ((hc.wf f' hf').domOk hJ).keys ?_ ?_ hoo
      · rw [Dict.keys_filter_key f.dom (fun v => v ∉ Dict.keys obs)]; exact ((h.wf f (by simp)).domOk hJ).keys.filter _
      · rw [k1]
        exact hfilt ((h.wf g0 hg0).domOk hJ).keys ((h.wf f (by simp)).domOk hJ).keys (h.dom g0 hg0 f (by simp))
    obtain ⟨l, l1, l2⟩ := c4 o hoo' N.low (.inl rfl)
    obtain ⟨u, u1, u2⟩ := c4 o hoo' N.up (.inr rfl)
    refine ⟨lo, hi, x3, ?_, ?_⟩
    · rw [l1, ← l2]; exact y3.1
    · rw [u1, ← u2]; exact y3.2

end

/-! ### Queries to several models -/

section
variable {V S K : Type} [DecidableEq V] [DecidableEq S] [Inhabited S] [Field K] [LinearOrder K] [IsStrictOrderedRing K]
variable {vt : VType}

local notation "II" => (storeOf vt : StoreImpl V S (Fl K))
local notation "LL" => (labelStoreOf vt : LabelStore V S)

/-- The model answers the query with a table of finite numbers over the variables and states `D`. -/
def AnswersIn (D : Dom V S) (q : SCM II LL → Py (Factor II)) (m : SCM II LL) : Prop :=
  ∃ m' r, new m = .ok m' ∧ q m' = .ok r ∧ r.WF ∧ dictEq D r.dom ∧ AllFinite r

/-- What the model answers at a joint state -/
def valueIn (q : SCM II LL → Py (Factor II)) (m : SCM II LL) (obs : Obs V S) : K :=
  match (do let m' ← new m; let r ← q m'; r.getValue obs) with
  | .ok (.fin x) => x
  | _ => 0

theorem AnswersIn.answer {D : Dom V S} (hD : (Dict.keys D).Nodup) {q : SCM II LL → Py (Factor II)} {m : SCM II LL} (h : AnswersIn D q m) :
    ∃ m' r, new m = .ok m' ∧ q m' = .ok r ∧ Answer (fun v s => (v, s) ∈ D) (fun v => v ∈ Dict.keys D) (valueIn q m) r := by
  have hJ := storeOf_lawful (V := V) (S := S) (α := Fl K) vt
  obtain ⟨m', r, h1, h2, h3, h4, h5⟩ := h
  have k := (h3.domOk hJ).keys
  refine ⟨m', r, h1, h2, h3, fun p hp => dictEq_mem hD k h4 hp, fun v => ⟨fun hv => ?_, fun hv => ?_⟩, fun o ho => ?_⟩
  · obtain ⟨st, hst⟩ := Dict.mem_keys.1 hv
    exact Dict.mem_keys_of_mem (dictEq_mem hD k h4 hst)
  · obtain ⟨st, hst⟩ := Dict.mem_keys.1 hv
    exact Dict.mem_keys_of_mem (Dict.mem_of_get? (h4.2 _ hst))
  · obtain ⟨x, hx⟩ := h5 o ho
    rw [valueIn, h1, py_ok_bind, h2, py_ok_bind, hx]

/-- **C116** the bounds that more models give for a query contain those of fewer models, in the interval factor and in the numbers
read from it. -/
theorem C116_query (N : BoundNames V S) (wt : VType) {D : Dom V S} (hD : (Dict.keys D).Nodup) (hb : N.bound ∉ Dict.keys D) {q : SCM II LL → Py (Factor II)}
    {ms ms' : List (SCM II LL)} (hq : ∀ m ∈ ms', AnswersIn D q m) (hs : ∀ m ∈ ms, m ∈ ms') (hne : ms ≠ []) {o o' : MultiObj II LL}
    (ho : AnswersFor o ms) (ho' : AnswersFor o' ms') (hf : o.flag = true) (hf' : o'.flag = true) :
    ∃ p p' r r', o.query N (storeOf wt) q = .ok (p, .interval r) ∧ o'.query N (storeOf wt) q = .ok (p', .interval r') ∧
      ∀ obs, FullObs D obs → ∃ lo hi lo' hi', BoundsAt N r obs lo hi ∧ BoundsAt N r' obs lo' hi' ∧ lo' ≤ lo ∧ lo ≤ hi ∧ hi ≤ hi' ∧
        (N.bound ∉ Dict.keys obs → o.queryAt N (storeOf wt) q obs = .ok (p, .numbers [.fin lo, .fin hi]) ∧
          o'.queryAt N (storeOf wt) q obs = .ok (p', .numbers [.fin lo', .fin hi'])) := by
  have hP : ∀ v s s', (v, s) ∈ D → (v, s') ∈ D → s = s' := fun v s s' h h' => by
    have := Dict.get?_of_mem hD h
    rw [Dict.get?_of_mem hD h'] at this
    exact (Option.some.inj this).symm
  have hne' : ms' ≠ [] := by
    obtain ⟨m, hm⟩ := List.exists_mem_of_ne_nil ms hne
    exact List.ne_nil_of_mem (hs m hm)
  obtain ⟨p, _, a, _⟩ := multi_query N wt (P := fun v s => (v, s) ∈ D) hP (T := fun v => v ∈ Dict.keys D) hb (val := valueIn q) (q := q) hne
    (List.forall₂_same.2 fun m hm => (hq m (hs m hm)).answer hD) ho
  obtain ⟨p', _, b, _⟩ := multi_query N wt (P := fun v s => (v, s) ∈ D) hP (T := fun v => v ∈ Dict.keys D) hb (val := valueIn q) (q := q) hne'
    (List.forall₂_same.2 fun m hm => (hq m hm).answer hD) ho'
  obtain ⟨r, a1, _, a3, a4, a5⟩ := a hf
  obtain ⟨r', b1, _, b3, b4, b5⟩ := b hf'
  refine ⟨p, p', r, r', a1, b1, fun obs hobs => ?_⟩
  obtain ⟨lo, hi, c1, c2, c3⟩ := a4 obs fun x hx => hobs _ (a3 x hx)
  obtain ⟨lo', hi', d1, d2, d3⟩ := b4 obs fun x hx => hobs _ (b3 x hx)
  obtain ⟨w1, w2, w3⟩ := c1.wider d1 fun x hx => by
    obtain ⟨m, hm, e⟩ := List.mem_map.1 hx
    exact List.mem_map.2 ⟨m, hs m hm, e⟩
  refine ⟨lo, hi, lo', hi', ⟨c2, c3⟩, ⟨d2, d3⟩, w1, w2, w3, fun hn => ?_⟩
  have hh : ∀ v st, v ∈ Dict.keys D → (v, st) ∈ D → ∃ s ∈ st, Dict.get? obs v = some s := fun v st _ h => hobs (v, st) h
  obtain ⟨l, u, x1, x2⟩ := a5 obs hh hn
  obtain ⟨l', u', y1, y2⟩ := b5 obs hh hn
  obtain ⟨rfl, rfl⟩ := c1.same x1 fun _ => Iff.rfl
  obtain ⟨rfl, rfl⟩ := d1.same y1 fun _ => Iff.rfl
  exact ⟨x2, y2⟩

/-- **C116** models added to an object make the bounds wider, if the object answers for the models it has (C51 says when). -/
theorem C116_add (N : BoundNames V S) (wt : VType) {D : Dom V S} (hD : (Dict.keys D).Nodup) (hb : N.bound ∉ Dict.keys D) {q : SCM II LL → Py (Factor II)}
    {o : MultiObj II LL} {ms : List (SCM II LL)} (hq : ∀ m ∈ o.models ++ ms, AnswersIn D q m) (hne : o.models ≠ []) (ho : AnswersFor o o.models)
    (hf : o.flag = true) :
    ∃ p p' r r', o.query N (storeOf wt) q = .ok (p, .interval r) ∧ (o.addModels ms).query N (storeOf wt) q = .ok (p', .interval r') ∧
      ∀ obs, FullObs D obs → ∃ lo hi lo' hi', BoundsAt N r obs lo hi ∧ BoundsAt N r' obs lo' hi' ∧ lo' ≤ lo ∧ lo ≤ hi ∧ hi ≤ hi' := by
  obtain ⟨p, p', r, r', h1, h2, h3⟩ := C116_query N wt hD hb hq (fun m hm => List.mem_append_left _ hm) hne ho
    (o' := o.addModels ms) (.inl ⟨rfl, rfl⟩) hf hf
  refine ⟨p, p', r, r', h1, h2, fun obs hobs => ?_⟩
  obtain ⟨lo, hi, lo', hi', k1, k2, k3, k4, k5, _⟩ := h3 obs hobs
  exact ⟨lo, hi, lo', hi', k1, k2, k3, k4, k5⟩

end

/-! ### Examples -/

/-- The bounds of the tables of `P(A)` with these values -/
def widerEx (vt : VType) (tables : List (List (Fl ℚ))) (obs : Obs Char Char) (before : Bool) : Py (List (Fl ℚ)) := do
  let fs ← tables.mapM fun t => Factor.make (IQ vt) [('A', ['a', 'b', 'c'])] t none none
  let fs ← if before then fs.mapM fun f => f.restrict obs else pure fs
  let r ← IFactor.fromPrecise bndEx (IQ .numpy) fs
  let r ← if before then pure r else r.restrict bndEx obs
  r.values

theorem C116_example (vt : VType) : widerEx vt [[q (1/2), q (1/4), q (1/4)]] [] false = .ok [q (1/2), q (1/4), q (1/4), q (1/2), q (1/4), q (1/4)] ∧
    widerEx vt [[q (1/2), q (1/4), q (1/4)], [q (1/3), q (1/2), q (1/6)]] [] false = .ok [q (1/3), q (1/4), q (1/6), q (1/2), q (1/2), q (1/4)] ∧
    widerEx vt [[q (1/3), q (1/2), q (1/6)], [q (1/2), q (1/4), q (1/4)], [q (1/3), q (1/2), q (1/6)]] [] false =
      .ok [q (1/3), q (1/4), q (1/6), q (1/2), q (1/2), q (1/4)] ∧
    ∀ b, widerEx vt [[q (1/2), q (1/4), q (1/4)], [q (1/3), q (1/2), q (1/6)]] [('A', 'b')] b = .ok [q (1/4), q (1/2)] := by
  cases vt <;> decide +kernel

/-- The hypotheses are met: tables made of finite numbers can be compared. -/
theorem C116_tables {V S K : Type} [DecidableEq V] [DecidableEq S] [Inhabited S] [Field K] [LinearOrder K] (N : BoundNames V S) (vt : VType) {d : Dom V S}
    (hd : DomOk d) (hb : N.bound ∉ Dict.keys d) {tables : List (List K)} (hl : ∀ t ∈ tables, t.length = (cards d).prod) :
    ∃ fs, tables.mapM (fun t => Factor.make (storeOf vt : StoreImpl V S (Fl K)) d (t.map Fl.fin) none none) = .ok fs ∧ fs.length = tables.length ∧
      Comparable N vt fs := by
  have hI := storeOf_lawful (V := V) (S := S) (α := Fl K) vt
  have key : ∃ fs, tables.mapM (fun t => Factor.make (storeOf vt : StoreImpl V S (Fl K)) d (t.map Fl.fin) none none) = .ok fs ∧
      fs.length = tables.length ∧ ∀ f ∈ fs, f.WF ∧ f.dom = d ∧ AllFinite f := by
    induction tables with
    | nil => exact ⟨[], rfl, rfl, by simp⟩
    | cons t ts ih =>
      obtain ⟨fs, h1, h2, h3⟩ := ih fun t ht => hl t (List.mem_cons_of_mem _ ht)
      obtain ⟨f, k1, k2, k3, _, k5⟩ := Factor.make_ok hI (values := t.map Fl.fin) (left := none) (right := none) hd
        (by rw [List.length_map]; exact hl t (by simp)) rfl
      refine ⟨f :: fs, by rw [List.mapM_cons, k1, py_ok_bind, h1]; rfl, by simp [h2], fun g hg => ?_⟩
      rcases List.mem_cons.1 hg with rfl | hg
      · refine ⟨k2, k3, fun o ho => ?_⟩
        rw [Factor.getValue_full hI k2 ho, k5 _ (k3 ▸ ho.inDom)]
        refine ⟨t.getD (ravel (cards d) (coords d (asg o))) 0, congrArg Except.ok ?_⟩
        rw [List.getD_eq_getElem?_getD, List.getD_eq_getElem?_getD, List.getElem?_map]
        cases t[ravel (cards d) (coords d (asg o))]? <;> rfl
      · exact h3 g hg
  obtain ⟨fs, h1, h2, h3⟩ := key
  refine ⟨fs, h1, h2, fun g hg => (h3 g hg).1, fun f hf g hg => ?_, fun g hg => (h3 g hg).2.2, fun g hg => ?_⟩
  · rw [(h3 f hf).2.1, (h3 g hg).2.1]
    exact ⟨rfl, fun p hp => Dict.get?_of_mem hd.keys hp⟩
  · rw [Factor.vars, (h3 g hg).2.1]; exact hb

/-- What an exact answer of a model (C42, C43) gives -/
theorem answersIn_of_answer {V S K : Type} [DecidableEq V] [DecidableEq S] [Inhabited S] [Field K] [LinearOrder K] [IsStrictOrderedRing K] {vt : VType}
    {D : Dom V S} (hD : (Dict.keys D).Nodup) {q : SCM (storeOf vt : StoreImpl V S (Fl K)) (labelStoreOf vt) → Py (Factor (storeOf vt : StoreImpl V S (Fl K)))}
    {m m' : SCM (storeOf vt : StoreImpl V S (Fl K)) (labelStoreOf vt)} {r : Factor (storeOf vt : StoreImpl V S (Fl K))} {val : Obs V S → K}
    (h1 : new m = .ok m') (h2 : q m' = .ok r) (h : Answer (fun v s => (v, s) ∈ D) (fun v => v ∈ Dict.keys D) val r) : AnswersIn D q m := by
  have hI := storeOf_lawful (V := V) (S := S) (α := Fl K) vt
  have k := (h.wf.domOk hI).keys
  refine ⟨m', r, h1, h2, h.wf, ⟨?_, fun p hp => ?_⟩, fun o ho => ⟨_, h.value o ho⟩⟩
  · have := ((List.perm_ext_iff_of_nodup k hD).2 fun v => h.vars v).length_eq
    simpa [Dict.keys] using this.symm
  · obtain ⟨st, hst⟩ := Dict.mem_keys.1 ((h.vars p.1).2 (Dict.mem_keys_of_mem hp))
    have e1 := Dict.get?_of_mem hD (h.dom _ hst)
    simp only at e1
    rw [Dict.get?_of_mem hD (k := p.1) (v := p.2) hp] at e1
    rw [Dict.get?_of_mem k hst, Option.some.inj e1]

/-- Probabilities of necessity, of sufficiency and of both, learnt with one start and with two: the bounds get wider. -/
theorem C116_learnt (vt : VType) :
    confCausation vt true true 3 [('0', '0'), ('1', '1'), ('1', '1'), ('1', '1')] [[-1, -1, -2]] = .ok ([q (2/3), q (2/3)], [q 0, q 0], [q (1/2), q (1/2)]) ∧
    confCausation vt true true 3 [('0', '0'), ('1', '1'), ('1', '1'), ('1', '1')] [[-1, -1, -2], [-1, -2, -1]] =
      .ok ([q (1/3), q (2/3)], [q 0, q 0], [q (1/4), q (1/2)]) := by
  refine ⟨?_, C82_example_values vt⟩
  cases vt <;> decide +kernel

end Verif.Props
