import Verif.Props.Place

/-!
# Exactly for which domains the default store pairs values by label (C02)
-/

set_option linter.unusedSectionVars false
set_option linter.unusedSimpArgs false

namespace Verif.Props
open Verif

variable {V S α : Type} [DecidableEq V] [DecidableEq S] [Nonempty S] [Inhabited α] [Semiring α]

/-- The product of the two factors multiplies the values of the same labels. -/
def PairsLabels {vt : VType} (f g : Factor (storeOf vt : StoreImpl V S α)) : Prop :=
  ∃ r, f.multiply g = .ok r ∧ r.WF ∧ ∀ obs, FullObs r.dom obs →
    ∃ x y, f.getValue obs = .ok x ∧ g.getValue obs = .ok y ∧ r.getValue obs = .ok (x * y)

/-- The dictionary that gives the keys their values under an assignment. -/
def obsOn (l : List V) (a : V → S) : Obs V S := l.map fun w => (w, a w)

theorem get?_obsOn {l : List V} {a : V → S} {w : V} (h : w ∈ l) : Dict.get? (obsOn l a) w = some (a w) := by
  induction l with
  | nil => cases h
  | cons u l ih =>
    by_cases e : u = w
    · subst e; simp [obsOn, Dict.get?]
    · rw [show Dict.get? (obsOn (u :: l) a) w = Dict.get? (obsOn l a) w by simp [obsOn, Dict.get?, e]]
      exact ih ((List.mem_cons.1 h).resolve_left fun e' => e e'.symm)

/-- The first state of a variable. -/
noncomputable def firstState (d : Dom V S) (w : V) : S := ((Dict.get? d w).getD []).headD (Classical.arbitrary S)

theorem firstState_eq {d : Dom V S} (hd : DomOk d) {p : V × List S} (hp : p ∈ d) : p.2[0]? = some (firstState d p.1) := by
  rw [firstState, Dict.get?_of_mem hd.keys (show (p.1, p.2) ∈ d from hp), Option.getD_some]
  cases h : p.2 with
  | nil => exact absurd h (hd.nonempty p hp)
  | cons s l => rfl

/-- **C02** for the default store, exactly: with given domains (shared variables having the same states) all products pair
values by label if and only if every shared variable lists its states in the same order. -/
theorem C02_exact [Nontrivial α] {d e : Dom V S} (hd : DomOk d) (he : DomOk e) (hc : SetCompat d e) :
    (∀ f g : Factor (storeOf .numpy : StoreImpl V S α), f.WF → g.WF → f.dom = d → g.dom = e → PairsLabels f g) ↔ Compat d e := by
  have hI := storeOf_lawful (V := V) (S := S) (α := α) .numpy
  constructor
  · intro h p hp q hq hpq
    by_contra hne
    have hlen : p.2.length = q.2.length := (hc p hp q hq hpq).length_eq
    obtain ⟨k, hk⟩ : ∃ k, p.2[k]? ≠ q.2[k]? := by
      by_contra hall
      exact hne (List.ext_getElem? fun k => not_not.1 fun hk => hall ⟨k, hk⟩)
    have hkl : k < p.2.length := by
      by_contra hlt
      refine hk ?_
      rw [List.getElem?_eq_none (Nat.le_of_not_lt hlt), List.getElem?_eq_none (hlen ▸ Nat.le_of_not_lt hlt)]
    obtain ⟨y, hy⟩ : ∃ y, p.2[k]? = some y := ⟨_, List.getElem?_eq_getElem hkl⟩
    obtain ⟨x, hx⟩ : ∃ x, q.2[k]? = some x := ⟨_, List.getElem?_eq_getElem (hlen ▸ hkl)⟩
    have hxy : x ≠ y := fun e => hk (by rw [hx, hy, e])
    -- the two joint states
    let a : V → S := fun w => if w = p.1 then x else if w ∈ Dict.keys e then firstState e w else firstState d w
    let a' : V → S := fun w => if w = p.1 then y else firstState d w
    have sh : ∀ c ∈ d, ∀ b ∈ e, c.1 = b.1 → ∃ (j : Nat) (s t : S), b.2[j]? = some s ∧ c.2[j]? = some t ∧ a c.1 = s ∧ a' c.1 = t := by
      intro c hcd b hbe hcb
      by_cases hv : c.1 = p.1
      · have h1 : c = p := by
          have := Dict.get?_of_mem hd.keys (show (c.1, c.2) ∈ d from hcd)
          rw [hv, Dict.get?_of_mem hd.keys (show (p.1, p.2) ∈ d from hp)] at this
          exact Prod.ext hv (Option.some.inj this).symm
        have h2 : b = q := by
          have hb1 : b.1 = q.1 := by rw [← hcb, hv, hpq]
          have := Dict.get?_of_mem he.keys (show (b.1, b.2) ∈ e from hbe)
          rw [hb1, Dict.get?_of_mem he.keys (show (q.1, q.2) ∈ e from hq)] at this
          exact Prod.ext hb1 (Option.some.inj this).symm
        subst h1 h2
        exact ⟨k, x, y, hx, hy, by simp [a], by simp [a']⟩
      · refine ⟨0, firstState e b.1, firstState d c.1, firstState_eq he hbe, firstState_eq hd hcd, ?_, by simp [a', hv]⟩
        have : c.1 ∈ Dict.keys e := hcb ▸ Dict.mem_keys_of_mem hbe
        show (if c.1 = p.1 then x else if c.1 ∈ Dict.keys e then firstState e c.1 else firstState d c.1) = _
        rw [if_neg hv, if_pos this, hcb]
    let o := obsOn (Dict.keys (Dict.merge d e)) a
    let o' := obsOn (Dict.keys d) a'
    have hkey : ∀ w, w ∈ Dict.keys d ∨ w ∈ Dict.keys e → w ∈ Dict.keys (Dict.merge d e) := by
      intro w hw
      refine Dict.get?_isSome.1 ?_
      rw [Dict.get?_merge]
      rcases hw with hw | hw
      · obtain ⟨z, hz⟩ := Option.isSome_iff_exists.1 (Dict.get?_isSome.2 hw)
        rw [hz]; cases Dict.get? e w <;> rfl
      · obtain ⟨z, hz⟩ := Option.isSome_iff_exists.1 (Dict.get?_isSome.2 hw)
        rw [hz]; rfl
    have ha'd : ∀ c ∈ d, a' c.1 ∈ c.2 := by
      intro c hcd
      by_cases hv : c.1 = p.1
      · have h1 : c = p := by
          have := Dict.get?_of_mem hd.keys (show (c.1, c.2) ∈ d from hcd)
          rw [hv, Dict.get?_of_mem hd.keys (show (p.1, p.2) ∈ d from hp)] at this
          exact Prod.ext hv (Option.some.inj this).symm
        subst h1
        simpa [a'] using List.mem_of_getElem? hy
      · simpa [a', hv] using List.mem_of_getElem? (firstState_eq hd hcd)
    have hae : ∀ b ∈ e, a b.1 ∈ b.2 := by
      intro b hbe
      by_cases hv : b.1 = p.1
      · have h2 : b = q := by
          have hb1 : b.1 = q.1 := hv.trans hpq
          have := Dict.get?_of_mem he.keys (show (b.1, b.2) ∈ e from hbe)
          rw [hb1, Dict.get?_of_mem he.keys (show (q.1, q.2) ∈ e from hq)] at this
          exact Prod.ext hb1 (Option.some.inj this).symm
        subst h2
        simpa [a, hv] using List.mem_of_getElem? hx
      · simpa [a, hv, Dict.mem_keys_of_mem hbe] using List.mem_of_getElem? (firstState_eq he hbe)
    have had : ∀ c ∈ d, a c.1 ∈ c.2 := by
      intro c hcd
      by_cases hk : c.1 ∈ Dict.keys e
      · obtain ⟨l, hl⟩ := Dict.mem_keys.1 hk
        exact (hc c hcd _ hl rfl).mem_iff.2 (hae _ hl)
      · have hv : c.1 ≠ p.1 := fun hv => hk (by rw [hv, hpq]; exact Dict.mem_keys_of_mem hq)
        simpa [a, hv, hk] using List.mem_of_getElem? (firstState_eq hd hcd)
    have hfd : FullObs d o := fun c hcd =>
      ⟨a c.1, had c hcd, get?_obsOn (hkey _ (.inl (Dict.mem_keys_of_mem hcd)))⟩
    have hfd' : FullObs d o' := fun c hcd => ⟨a' c.1, ha'd c hcd, get?_obsOn (Dict.mem_keys_of_mem hcd)⟩
    -- the first table is 1 at the joint state `o` and 0 elsewhere, the second one is 1
    let i := ravel (cards d) (coords d (asg o))
    obtain ⟨f, _, f2, f3, _, f5⟩ := Factor.make_ok hI (left := none) (right := none)
      (values := (List.range (cards d).prod).map fun j => if j = i then (1 : α) else 0) hd (by simp) rfl
    obtain ⟨g, _, g2, g3, _, g5⟩ := Factor.make_ok hI (left := none) (right := none)
      (values := List.replicate (cards e).prod (1 : α)) he (by simp) rfl
    have hfv : ∀ b, InDom d b → f.sem b = if ravel (cards d) (coords d b) = i then 1 else 0 := by
      intro b hb
      have hlt := ravel_lt (validIdx_coords hb)
      rw [f5 b hb, List.getD_eq_getElem?_getD, List.getElem?_map, List.getElem?_range hlt]
      rfl
    have hgv : ∀ b, InDom e b → g.sem b = 1 := by
      intro b hb
      have hlt := ravel_lt (validIdx_coords hb)
      rw [g5 b hb, List.getD_eq_getElem?_getD, List.getElem?_replicate, if_pos hlt]
      rfl
    obtain ⟨r, r1, _, r3⟩ := h f g f2 g2 f3 g3
    obtain ⟨r', s1, _, s3, s4⟩ := C02_numpy_by_place (· * ·) f2 g2 (by
      rw [f3, g3]; exact fun c hcd b hbe hcb => (hc c hcd b hbe hcb).length_eq)
    have hrr : r = r' := by
      have : Except.ok r = Except.ok r' := r1.symm.trans s1
      exact Except.ok.inj this
    subst hrr
    rw [f3, g3] at s3 s4
    have hgo : FullObs e o := fun b hbe => ⟨a b.1, hae b hbe, get?_obsOn (hkey _ (.inr (Dict.mem_keys_of_mem hbe)))⟩
    have hro : FullObs r.dom o := by
      rw [s3]
      intro c hcm
      have hck := Dict.mem_keys_of_mem hcm
      refine ⟨a c.1, ?_, get?_obsOn hck⟩
      rw [Dict.merge] at hcm
      rcases List.mem_append.1 hcm with hcm | hcm
      · obtain ⟨c0, h0, rfl⟩ := List.mem_map.1 hcm
        simp only
        cases hg : Dict.get? e c0.1 with
        | none => exact had c0 h0
        | some l => exact hae (c0.1, l) (Dict.mem_of_get? hg)
      · exact hae c (List.mem_filter.1 hcm).1
    obtain ⟨x1, y1, e1, e2, e3⟩ := r3 o hro
    obtain ⟨x2, y2, e4, e5, e6⟩ := s4 o o' hro ⟨fun c hcd hn => by
        have hv : c.1 ≠ p.1 := fun hv => hn (by rw [hv, hpq]; exact Dict.mem_keys_of_mem hq)
        rw [get?_obsOn (Dict.mem_keys_of_mem hcd), get?_obsOn (hkey _ (.inl (Dict.mem_keys_of_mem hcd)))]
        simp [a, a', hv, hn],
      fun c hcd b hbe hcb => by
        obtain ⟨j, s, t, j1, j2, j3, j4⟩ := sh c hcd b hbe hcb
        exact ⟨j, s, t, j1, j2, by rw [get?_obsOn (hkey _ (.inl (Dict.mem_keys_of_mem hcd))), j3],
          by rw [get?_obsOn (Dict.mem_keys_of_mem hcd), j4]⟩⟩
    have ho1 : x1 = 1 := by
      rw [Factor.getValue_full hI f2 (by rw [f3]; exact hfd)] at e1
      rw [← Except.ok.inj e1, hfv _ hfd.inDom, if_pos rfl]
    have ho2 : x2 = 0 := by
      rw [Factor.getValue_full hI f2 (by rw [f3]; exact hfd')] at e4
      rw [← Except.ok.inj e4, hfv _ hfd'.inDom, if_neg]
      intro hi
      have hco := ravel_injOn (validIdx_coords hfd'.inDom) (validIdx_coords hfd.inDom) hi
      have hpp : p.2.idxOf (asg o' p.1) = p.2.idxOf (asg o p.1) := by
        have := List.map_inj_left.1 hco p hp
        exact this
      have v1 : (asg o' : V → S) p.1 = y := by
        rw [asg, over_of_get? (get?_obsOn (Dict.mem_keys_of_mem hp))]; simp [a']
      have v2 : (asg o : V → S) p.1 = x := by
        rw [asg, over_of_get? (get?_obsOn (hkey _ (.inl (Dict.mem_keys_of_mem hp))))]; simp [a]
      rw [v1, v2] at hpp
      exact hxy ((List.idxOf_inj (List.mem_of_getElem? hy)).1 hpp).symm
    have hy1 : y1 = 1 := by
      rw [Factor.getValue_full hI g2 (by rw [g3]; exact hgo)] at e2
      rw [← Except.ok.inj e2, hgv _ hgo.inDom]
    have hy2 : y2 = 1 := by
      rw [Factor.getValue_full hI g2 (by rw [g3]; exact hgo)] at e5
      rw [← Except.ok.inj e5, hgv _ hgo.inDom]
    rw [e3] at e6
    have := Except.ok.inj e6
    rw [ho1, ho2, hy1, hy2] at this
    simp at this
  · intro hcomp f g hf hg hfd hgd
    obtain ⟨r, h1, h2, _, _, h5⟩ := C01_product_pointwise .numpy hf hg (by rw [hfd, hgd]; exact hcomp)
    exact ⟨r, h1, h2, h5⟩

/-- Both cases occur for domains with the same states: listed in the same order, and in two orders. -/
theorem C02_exact_example :
    (∀ f g : Factor (storeOf .numpy : StoreImpl Char Char ℤ), f.WF → g.WF → f.dom = dX → g.dom = dX → PairsLabels f g) ∧
    ¬ ∀ f g : Factor (storeOf .numpy : StoreImpl Char Char ℤ), f.WF → g.WF → f.dom = dX → g.dom = dX' → PairsLabels f g := by
  constructor
  · refine (C02_exact dX_ok dX_ok ?_).2 ?_
    · simp [SetCompat, dX]
    · simp [Compat, dX]
  · rw [C02_exact dX_ok dX'_ok setCompat_X]
    simp [Compat, dX, dX']

end Verif.Props
