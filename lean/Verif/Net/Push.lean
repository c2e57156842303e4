import Verif.Net.Bounds

/-!
# Changing the states of the exogenous variables

If every state of an exogenous variable of one causal model is mapped to a state of another model that gives the same
equations, and the masses are moved accordingly, no counterfactual probability changes.
-/

set_option linter.unusedSectionVars false
set_option linter.unusedSimpArgs false

namespace Verif

variable {V S K : Type} [DecidableEq V] [DecidableEq S] [Inhabited S] [Field K] [LinearOrder K] [IsStrictOrderedRing K]

/-- The assignment with the variables `xs` mapped by `φ`. -/
def moved (φ : V → S → S) (xs : List V) (a : V → S) : V → S := fun v => if v ∈ xs then φ v (a v) else a v

theorem sum_fibres {l l' : List S} (hl : l'.Nodup) {f : S → S} (hf : ∀ s ∈ l, f s ∈ l') (p H : S → K) :
    (l'.map fun s' => ((l.filter fun s => f s = s').map p).sum * H s').sum = (l.map fun s => p s * H (f s)).sum := by
  induction l with
  | nil => simp
  | cons s l ih =>
    have ih := ih fun t ht => hf t (List.mem_cons_of_mem _ ht)
    have : ∀ s', (((s :: l).filter fun t => f t = s').map p).sum * H s' =
        (if s' = f s then p s * H s' else 0) + ((l.filter fun t => f t = s').map p).sum * H s' := by
      intro s'
      by_cases h : f s = s'
      · rw [List.filter_cons_of_pos (by simpa using h), if_pos h.symm, List.map_cons, List.sum_cons, add_mul]
      · rw [List.filter_cons_of_neg (by simpa using h), if_neg (Ne.symm h), zero_add]
    simp only [this, List.sum_map_add, ih, List.map_cons, List.sum_cons]
    congr 1
    rw [sum_map_single hl (hf s (by simp)) fun t _ ht => if_neg ht, if_pos rfl]

/-- Moving the masses of independent variables. -/
theorem sumOver_moved {D D' : V → List S} {φ : V → S → S} {p p' : V → S → K} {xs : List V} (hx : xs.Nodup)
    (hD : ∀ x ∈ xs, (D' x).Nodup) (hφ : ∀ x ∈ xs, ∀ s ∈ D x, φ x s ∈ D' x)
    (hp : ∀ x ∈ xs, ∀ s' ∈ D' x, p' x s' = (((D x).filter fun s => φ x s = s').map (p x)).sum) (G : (V → S) → K) (a : V → S) :
    sumOver D' xs (fun u => (xs.map fun x => p' x (u x)).prod * G u) a =
      sumOver D xs (fun u => (xs.map fun x => p x (u x)).prod * G (moved φ xs u)) a := by
  induction xs generalizing G a with
  | nil =>
    have : moved φ [] a = a := by funext v; simp [moved]
    simp [this]
  | cons x xs ih =>
    obtain ⟨hx1, hx2⟩ := List.nodup_cons.1 hx
    have ih := fun G a => ih hx2 (fun y hy => hD y (List.mem_cons_of_mem _ hy)) (fun y hy => hφ y (List.mem_cons_of_mem _ hy))
      (fun y hy => hp y (List.mem_cons_of_mem _ hy)) G a
    rw [sumOver_cons, sumOver_cons]
    have h1 : ∀ (E : V → List S) (q : V → S → K) (F : (V → S) → K) (s : S),
        sumOver E xs (fun u => ((x :: xs).map fun y => q y (u y)).prod * F u) (upd a x s) =
          q x s * sumOver E xs (fun u => (xs.map fun y => q y (u y)).prod * F u) (upd a x s) := by
      intro E q F s
      have := sumOver_mul_left (D := E) (f := fun u => (xs.map fun y => q y (u y)).prod * F u) (g := fun _ => q x s) (vs := []) (xs := xs)
        (fun _ _ _ => rfl) (by simp) (upd a x s)
      rw [← this]
      refine sumOver_congr hx2 fun u hu _ => ?_
      rw [List.map_cons, List.prod_cons, hu x hx1, upd_same, mul_assoc]
    have h2 : ∀ s, sumOver D xs (fun u => (xs.map fun y => p y (u y)).prod * G (moved φ (x :: xs) u)) (upd a x s) =
        sumOver D xs (fun u => (xs.map fun y => p y (u y)).prod * G (moved φ xs u)) (upd a x (φ x s)) := by
      intro s
      have key : ∀ (ys : List V), x ∉ ys → ∀ (F F' : (V → S) → K) (b b' : V → S), (∀ u u', u x = s → u' = upd u x (φ x s) → F u = F' u') →
          b x = s → b' = upd b x (φ x s) → sumOver D ys F b = sumOver D ys F' b' := by
        intro ys
        induction ys with
        | nil => intro _ F F' b b' hF hb hb'; exact hF b b' hb hb'
        | cons y ys ihy =>
          intro hy F F' b b' hF hb hb'
          rw [List.mem_cons, not_or] at hy
          rw [sumOver_cons, sumOver_cons]
          refine congrArg List.sum (List.map_congr_left fun t _ => ihy hy.2 F F' _ _ hF ?_ ?_)
          · rw [upd_ne _ _ hy.1]; exact hb
          · rw [hb']
            funext w
            by_cases h1 : w = x
            · subst h1; rw [upd_ne _ _ hy.1, upd_same, upd_same]
            · by_cases h2 : w = y
              · subst h2; rw [upd_same, upd_ne _ _ h1, upd_same]
              · rw [upd_ne _ _ h2, upd_ne _ _ h1, upd_ne _ _ h1, upd_ne _ _ h2]
      refine key xs hx1 _ _ _ _ (fun u u' hu hu' => ?_) (upd_same _ _ _) ?_
      · subst hu'
        have e1 : (xs.map fun y => p y (upd u x (φ x s) y)) = xs.map fun y => p y (u y) :=
          List.map_congr_left fun y hy => by
            have hyx : y ≠ x := fun h => hx1 (h ▸ hy)
            rw [upd_ne _ _ hyx]
        have e2 : moved φ xs (upd u x (φ x s)) = moved φ (x :: xs) u := by
          funext w
          by_cases h1 : w = x
          · subst h1; simp [moved, hx1, hu, upd_same]
          · simp [moved, h1, upd_ne _ _ h1]
        rw [e1, e2]
      · funext w
        by_cases h1 : w = x
        · subst h1; rw [upd_same, upd_same]
        · rw [upd_ne _ _ h1, upd_ne _ _ h1, upd_ne _ _ h1]
    have h3 : ∀ s, sumOver D xs (fun u => ((x :: xs).map fun y => p y (u y)).prod * G (moved φ (x :: xs) u)) (upd a x s) =
        p x s * sumOver D xs (fun u => (xs.map fun y => p y (u y)).prod * G (moved φ xs u)) (upd a x (φ x s)) := fun s => by
      rw [h1 D p (fun u => G (moved φ (x :: xs) u)) s, h2]
    simp only [h1 D' p' G, h3, ih]
    rw [← sum_fibres (hD x (by simp)) (hφ x (by simp)) (p x) fun s' =>
      sumOver D xs (fun u => (xs.map fun y => p y (u y)).prod * G (moved φ xs u)) (upd a x s')]
    refine congrArg List.sum (List.map_congr_left fun s' hs' => ?_)
    rw [hp x (by simp) s' hs']

namespace BN

/-- `B'` has the graph of `B` and the states of its endogenous variables; the states of the exogenous variables of `B` are mapped by `φ` to
states of `B'` with the same equations and the mass of all states mapped to them. -/
structure Reads (B B' : BN V S K) (φ : V → S → S) : Prop where
  nodes : B'.nodes = B.nodes
  parents : ∀ v ∈ B.nodes, B'.parents v = B.parents v
  states : ∀ v ∈ B.inner, B'.states v = B.states v
  into : ∀ x ∈ B.roots, ∀ s ∈ B.states x, φ x s ∈ B'.states x
  equations : ∀ v ∈ B.inner, ∀ a, B.InStates a → B'.table v (moved φ B.roots a) = B.table v a
  masses : ∀ x ∈ B.roots, ∀ s' ∈ B'.states x, (B'.table x fun _ => s') = (((B.states x).filter fun s => φ x s = s').map fun s => B.table x fun _ => s).sum

variable {B B' : BN V S K} {φ : V → S → S}

theorem Reads.roots (h : Reads B B' φ) : B'.roots = B.roots := by
  rw [BN.roots, BN.roots, h.nodes]
  exact List.filter_congr fun v hv => by rw [h.parents v hv]

theorem Reads.inner (h : Reads B B' φ) : B'.inner = B.inner := by
  rw [BN.inner, BN.inner, h.nodes]
  exact List.filter_congr fun v hv => by rw [h.parents v hv]

theorem moved_inner {a : V → S} {v : V} (hv : v ∈ B.inner) : moved φ B.roots a v = a v :=
  if_neg fun h => (mem_inner.1 hv).2 (mem_roots.1 h).2

/-- Solutions are mapped to solutions. -/
theorem Reads.solves (h : Reads B B' φ) {d : Obs V S} {b : V → S} (hb : B.Solves B.inner d b) (hu : ∀ x ∈ B.roots, b x ∈ B.states x) :
    B'.Solves B'.inner d (moved φ B.roots b) := by
  have hin : B.InStates b := fun v hv => by
    by_cases hr : v ∈ B.roots
    · exact hu v hr
    · exact (hb v (mem_inner.2 ⟨hv, fun hc => hr (mem_roots.2 ⟨hv, hc⟩)⟩)).1
  rw [h.inner]
  intro v hv
  obtain ⟨h1, h2, h3⟩ := hb v hv
  rw [moved_inner hv, h.states v hv]
  exact ⟨h1, h2, fun hd => by rw [h.equations v hv b hin]; exact h3 hd⟩

theorem Reads.holds (h : Reads B B' φ) (hE : B.Eqs B.inner) (hE' : B'.Eqs B'.inner) {w : Obs V S × Obs V S} (hd : B.DoOk w.1) (hd' : B'.DoOk w.1)
    (hw : ∀ v ∈ Dict.keys w.2, v ∈ B.inner) {u : V → S} (hu : ∀ x ∈ B.roots, u x ∈ B.states x) :
    B'.Holds B'.roots B'.inner (moved φ B.roots u) w ↔ B.Holds B.roots B.inner u w := by
  obtain ⟨b, b1, b2⟩ := exists_solves hE hd hu
  have b3 := h.solves b2 fun x hx => by rw [b1 x hx]; exact hu x hx
  have hu' : ∀ x ∈ B'.roots, moved φ B.roots u x ∈ B'.states x := fun x hx => by
    rw [h.roots] at hx
    rw [moved, if_pos hx]; exact h.into x hx _ (hu x hx)
  have b4 : ∀ x ∈ B'.roots, moved φ B.roots b x = moved φ B.roots u x := fun x hx => by
    rw [h.roots] at hx
    rw [moved, moved, if_pos hx, if_pos hx, b1 x hx]
  obtain ⟨d, c⟩ := w
  rw [holds_sol hE' hd' (fun v hv => by rw [h.nodes]; exact (mem_inner.1 (hw v hv)).1) hu' b3 b4,
    holds_sol hE hd (fun v hv => (mem_inner.1 (hw v hv)).1) hu b2 b1]
  refine forall₂_congr fun v s => imp_congr_right fun hs => ?_
  rw [moved_inner (hw v (Dict.get?_isSome.1 (by rw [hs]; rfl)))]

theorem table_root (hB : B.Valid) {x : V} (hx : x ∈ B.roots) (u : V → S) : B.table x u = B.table x fun _ => u x := by
  obtain ⟨h1, h2⟩ := mem_roots.1 hx
  refine hB.scope x h1 _ _ fun v hv => ?_
  rw [h2, List.mem_singleton] at hv
  rw [hv]

/-- No counterfactual probability changes. -/
theorem Reads.cfProb (h : Reads B B' φ) (hE : B.Eqs B.inner) (hE' : B'.Eqs B'.inner) {ws : List (Obs V S × Obs V S)}
    (hd : ∀ w ∈ ws, B.DoOk w.1 ∧ ∀ v ∈ Dict.keys w.1, v ∈ B.inner) (hw : ∀ w ∈ ws, ∀ v ∈ Dict.keys w.2, v ∈ B.inner) :
    B'.cfProb B'.roots B'.inner ws = B.cfProb B.roots B.inner ws := by
  classical
  have hd' : ∀ w ∈ ws, B'.DoOk w.1 := fun w hww v s hs hv => by
    have hi := (hd w hww).2 v (Dict.get?_isSome.1 (by rw [hs]; rfl))
    rw [h.states v hi]
    exact (hd w hww).1 v s hs (mem_inner.1 hi).1
  have hr := h.roots
  rw [BN.cfProb, BN.cfProb]
  have hn : B.roots.Nodup := hE.valid.nodes.filter _
  have e := sumOver_moved (D := B.states) (D' := B'.states) (φ := φ) (p := fun x s => B.table x fun _ => s) (p' := fun x s => B'.table x fun _ => s)
    hn (fun x hx => hE'.valid.nodupStates x (by rw [h.nodes]; exact (mem_roots.1 hx).1)) h.into h.masses
    (fun u => if ∀ w ∈ ws, B'.Holds B'.roots B'.inner u w then 1 else 0) fun _ => default
  have l : ∀ (C : BN V S K) (hC : C.Valid) (hCr : C.roots = B.roots) (u : V → S),
      (B.roots.map fun x => C.table x u).prod = (B.roots.map fun x => C.table x fun _ => u x).prod := fun C hC hCr u =>
    congrArg List.prod (List.map_congr_left fun x hx => table_root hC (hCr ▸ hx) u)
  rw [hr] at e
  rw [hr]
  refine (sumOver_congr' (fun u => ?_) _).trans (e.trans (sumOver_congr hn fun u _ hu => ?_))
  · rw [← l B' hE'.valid hr]
    by_cases hp : ∀ w ∈ ws, B'.Holds B.roots B'.inner u w
    · rw [if_pos hp, if_pos hp, mul_one]
    · rw [if_neg hp, if_neg hp, mul_zero]
  · rw [← l B hE.valid rfl]
    have : (∀ w ∈ ws, B'.Holds B.roots B'.inner (moved φ B.roots u) w) ↔ ∀ w ∈ ws, B.Holds B.roots B.inner u w := by
      refine forall₂_congr fun w hww => ?_
      have := h.holds hE hE' (hd w hww).1 (hd' w hww) (hw w hww) hu
      rwa [hr] at this
    by_cases hp : ∀ w ∈ ws, B.Holds B.roots B.inner u w
    · rw [if_pos hp, if_pos (this.2 hp), mul_one]
    · rw [if_neg hp, if_neg fun hc => hp (this.1 hc), mul_zero]

end BN

end Verif
