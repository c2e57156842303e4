import Verif.Model.Random
import Verif.Props.Normalize
import Verif.Props.Models

/-!
# C80: models filled at random are proper models

Whatever the generator returns, a structural causal model filled by `fill_random_factors` has zero-one
equations and normalised marginals, and a network filled by `randomize_factors` has normalised tables: the
theorems on inference, sampling and learning apply to them.
-/

set_option linter.unusedSectionVars false
set_option linter.unusedSimpArgs false

namespace Verif
namespace Props

variable {V S K : Type} [DecidableEq V] [DecidableEq S] [Inhabited S] [Field K] [LinearOrder K] [IsStrictOrderedRing K]
variable {vt : VType}

local notation "II" => (storeOf vt : StoreImpl V S (Fl K))
local notation "LL" => (labelStoreOf vt : LabelStore V S)

/-! ### Equations -/

/-- The states drawn for the variables on the left, given those on the right. -/
def drawn (d : Dom V S) (right : List V) (pick : Obs V Nat → V → Nat) (a : V → S) (v : V) : S :=
  (domStates d v).getD (pick (right.map fun w => (w, posOf d a w)) v) (a v)

theorem drawn_iff {d : Dom V S} (hd : DomOk d) {right : List V} {pick : Obs V Nat → V → Nat}
    (hp : ∀ s, ∀ p ∈ d, p.1 ∉ right → pick s p.1 < p.2.length) {a : V → S} (ha : InDom d a) {v : V} (hv : v ∈ Dict.keys d)
    (hr : v ∉ right) :
    drawn d right pick a v ∈ domStates d v ∧
      (posOf d a v = pick (right.map fun w => (w, posOf d a w)) v ↔ a v = drawn d right pick a v) := by
  obtain ⟨st, hst⟩ := Dict.mem_keys.1 hv
  have hs := domStates_of_mem hd.keys hst
  have hs : domStates d v = st := hs
  have hlt := hp (right.map fun w => (w, posOf d a w)) _ hst hr
  have hlt : pick (right.map fun w => (w, posOf d a w)) v < st.length := hlt
  have hdr : drawn d right pick a v = st[pick (right.map fun w => (w, posOf d a w)) v] := by
    rw [drawn, hs]; simp [List.getD, hlt]
  have hnd : st.Nodup := hd.states _ hst
  refine ⟨by rw [hdr, hs]; exact List.getElem_mem _, ?_⟩
  rw [hdr, posOf, hs]
  constructor
  · intro h
    have h1 : st.idxOf (a v) < st.length := List.idxOf_lt_length_of_mem (ha _ hst)
    have h2 : st[st.idxOf (a v)] = a v := List.getElem_idxOf h1
    simp only [← h, h2]
  · intro h
    rw [h, hnd.idxOf_getElem]

/-- **C80** `random_deterministic` gives a conditional table with one entry equal to one in every column: the state
`c a` that the generator drew for the column of `a`. -/
theorem C80_equation {d : Dom V S} (hd : DomOk d) (hne : d ≠ []) {right : List V}
    (hr : ∀ v ∈ right, v ∈ Dict.keys d) (hrn : right.Nodup) {pick : Obs V Nat → V → Nat}
    (hp : ∀ s, ∀ p ∈ d, p.1 ∉ right → pick s p.1 < p.2.length) :
    ∃ f, randomDeterministic II d (some right) pick = .ok f ∧ IsCPT f d right ∧
      ∃ c : (V → S) → V → S, (∀ a b, (∀ v ∈ right, a v = b v) → ∀ v ∈ Dict.keys d, v ∉ right → InDom d a → InDom d b → c a v = c b v) ∧
        (∀ a, InDom d a → ∀ v ∈ Dict.keys d, v ∉ right → c a v ∈ domStates d v) ∧
        ∀ a, InDom d a → f.sem a = .fin (if ∀ v ∈ Dict.keys d, v ∉ right → a v = c a v then 1 else 0) := by
  have hI := storeOf_lawful (V := V) (S := S) (α := Fl K) vt
  obtain ⟨f, f1, f2, f3, f4, f5⟩ := randomDeterministic_ok (K := K) hI hd hne hr hrn hp
  have hval : ∀ a, InDom d a → f.sem a = .fin (if ∀ v ∈ Dict.keys d, v ∉ right → a v = drawn d right pick a v then 1 else 0) := by
    intro a ha
    rw [f5 a ha]
    congr 2
    exact propext (forall_congr' fun v => forall_congr' fun hv => forall_congr' fun hvr => (drawn_iff hd hp ha hv hvr).2)
  have hcong : ∀ a b, (∀ v ∈ right, a v = b v) → ∀ v ∈ Dict.keys d, v ∉ right → InDom d a → InDom d b →
      drawn d right pick a v = drawn d right pick b v := by
    intro a b hab v hv hvr ha hb
    obtain ⟨st, hst⟩ := Dict.mem_keys.1 hv
    have hs : domStates d v = st := domStates_of_mem hd.keys hst
    have hrow : (right.map fun w => (w, posOf d a w)) = right.map fun w => (w, posOf d b w) :=
      List.map_congr_left fun w hw => by rw [posOf, posOf, hab w hw]
    have hlt := hp (right.map fun w => (w, posOf d b w)) _ hst hvr
    have hlt : pick (right.map fun w => (w, posOf d b w)) v < st.length := hlt
    rw [drawn, drawn, hrow, hs]
    simp [List.getD, hlt]
  refine ⟨f, f1, ⟨f2, f3, f4, _, fun a ha => ⟨hval a ha, ?_⟩, fun a ha => ?_⟩, drawn d right pick, hcong,
    fun a ha v hv hvr => (drawn_iff hd hp ha hv hvr).1, hval⟩
  · split
    · exact zero_le_one
    · exact le_refl _
  · -- the column sums to one: only the drawn state contributes
    let b : V → S := fun v => if v ∈ Dict.keys d ∧ v ∉ right then drawn d right pick a v else a v
    have hb : InDom d b := by
      intro p hpd
      have hk := Dict.mem_keys_of_mem hpd
      by_cases hvr : p.1 ∈ right
      · simp only [b, hk, hvr, not_true_eq_false, and_false, if_false]; exact ha p hpd
      · simp only [b, hk, hvr, not_false_eq_true, and_self, if_true]
        have := (drawn_iff hd hp ha hk hvr).1
        rwa [domStates_of_mem hd.keys hpd] at this
    have hbr : ∀ v ∈ right, b v = a v := fun v hv => by simp [b, hv]
    rw [sumOver_single (b := b) (hd.keys.filter _)]
    · rw [if_pos]
      intro v hv hvr
      rw [hcong b a hbr v hv hvr hb ha]
      simp [b, hv, hvr]
    · intro x hx
      obtain ⟨st, hst⟩ := Dict.mem_keys.1 (List.mem_filter.1 hx).1
      have : domStates d x = st := domStates_of_mem hd.keys hst
      rw [this]; exact hd.states _ hst
    · intro v hv
      have : ¬ (v ∈ Dict.keys d ∧ v ∉ right) := fun h => hv (List.mem_filter.2 ⟨h.1, by simpa using h.2⟩)
      simp only [b, if_neg this]
    · intro v hv
      obtain ⟨st, hst⟩ := Dict.mem_keys.1 (List.mem_filter.1 hv).1
      have : domStates d v = st := domStates_of_mem hd.keys hst
      rw [this]; exact hb _ hst
    · intro c hc1 hc2 hne'
      rw [if_neg]
      intro h
      have hcr : ∀ v ∈ right, c v = a v := fun v hv => hc1 v fun h => by simpa [hv] using (List.mem_filter.1 h).2
      have hcd : InDom d c := by
        intro p hpd
        have hk := Dict.mem_keys_of_mem hpd
        by_cases hvr : p.1 ∈ right
        · rw [hcr _ hvr]; exact ha p hpd
        · have := hc2 p.1 (List.mem_filter.2 ⟨hk, by simpa using hvr⟩)
          rwa [domStates_of_mem hd.keys hpd] at this
      refine hne' (funext fun v => ?_)
      by_cases hv : v ∈ Dict.keys d ∧ v ∉ right
      · rw [h v hv.1 hv.2, hcong c a hcr v hv.1 hv.2 hcd ha]
        simp [b, hv.1, hv.2]
      · have : v ∉ (Dict.keys d).filter (fun v => v ∉ right) := fun h => hv (by simpa using List.mem_filter.1 h)
        rw [hc1 v this]
        simp only [b, if_neg hv]

/-- `random_deterministic` without right variables fails: an equation without parents must be asked for with
`right_vars=[]`. -/
theorem C80_equation_none (d : Dom V S) (pick : Obs V Nat → V → Nat) :
    randomDeterministic II d none pick = .error .attributeError := rfl

/-! ### Networks made of conditional tables -/

/-- A conditional table for the node `v` of `g` with states `D`. -/
structure NodeCPT (g : DiGraph V) (D : V → List S) (v : V) (f : Factor II) : Prop where
  ex : ∃ d r, IsCPT f d r ∧ (Dict.keys d).filter (fun w => w ∉ r) = [v] ∧ (∀ w, w ∈ r ↔ w ∈ g.pred v) ∧
    (∀ w ∈ r, w ∈ Dict.keys d) ∧ ∀ p ∈ d, p.2 = D p.1

theorem NodeCPT.vars {g : DiGraph V} {D : V → List S} {v : V} {f : Factor II} (h : NodeCPT g D v f) (w : V) :
    w ∈ f.vars ↔ w = v ∨ w ∈ g.pred v := by
  obtain ⟨d, r, hf, hl, hr, hrd, hD⟩ := h.ex
  rw [Factor.vars, hf.dom, ← hr]
  have : w ∈ (Dict.keys d).filter (fun w => w ∉ r) ↔ w = v := by rw [hl]; simp
  simp only [List.mem_filter, decide_eq_true_eq] at this
  have := hrd w
  tauto

theorem NodeCPT.left {g : DiGraph V} {D : V → List S} {v : V} {f : Factor II} (h : NodeCPT g D v f) : f.leftVars = [v] := by
  obtain ⟨d, r, hf, hl, _⟩ := h.ex
  rw [Factor.leftVars, Factor.vars, hf.dom, hf.rightVars, hl]

theorem NodeCPT.right {g : DiGraph V} {D : V → List S} {v : V} {f : Factor II} (h : NodeCPT g D v f) (w : V) :
    w ∈ f.rightVars ↔ w ∈ g.pred v := by
  obtain ⟨d, r, hf, _, hr, _⟩ := h.ex
  rw [hf.rightVars, hr]

theorem NodeCPT.dom {g : DiGraph V} {D : V → List S} {v : V} {f : Factor II} (h : NodeCPT g D v f) : ∀ p ∈ f.dom, p.2 = D p.1 := by
  obtain ⟨d, r, hf, _, _, _, hD⟩ := h.ex
  rw [hf.dom]; exact hD

theorem NodeCPT.wf {g : DiGraph V} {D : V → List S} {v : V} {f : Factor II} (h : NodeCPT g D v f) : f.WF := by
  obtain ⟨d, r, hf, _⟩ := h.ex
  exact hf.wf

theorem NodeCPT.fits {g : DiGraph V} {D : V → List S} {v : V} {f : Factor II} (h : NodeCPT g D v f) (hv : v ∈ g.nodes) :
    DagModel.Fits g D v (AnyFactor.multi f : AnyFactor II LL) where
  node := hv
  right := ⟨fun w hw => (h.right w).2 hw, fun w hw => (h.right w).1 hw⟩
  left := by
    show SameSet [v] f.leftVars
    rw [h.left]; exact ⟨fun _ h => h, fun _ h => h⟩
  dom := h.dom
  mem := (h.vars v).2 (.inl rfl)

/-- The cells are finite, not negative, and sum to one over the states of the node. -/
theorem NodeCPT.cells {g : DiGraph V} {D : V → List S} {v : V} {f : Factor II} (h : NodeCPT g D v f) :
    (∀ a, InDom f.dom a → f.sem a = .fin (f.at a) ∧ 0 ≤ f.at a) ∧
      ∀ a, InDom f.dom a → ((D v).map fun s => f.at (upd a v s)).sum = 1 := by
  have hI := storeOf_lawful (V := V) (S := S) (α := Fl K) vt
  have hw := h.wf
  obtain ⟨d, r, hf, hl, hr, hrd, hD⟩ := h.ex
  obtain ⟨φ, h1, h2⟩ := hf.table
  rw [hf.dom]
  have hat : ∀ a, InDom d a → f.at a = φ a := by
    intro a ha
    have := Factor.at_sem hI hw (fun obs ho => by
      refine ⟨φ (asg obs), ?_⟩
      rw [Factor.getValue_full hI hw ho]
      have hi := ho.inDom
      rw [hf.dom] at hi
      rw [(h1 _ hi).1]) (by rw [hf.dom]; exact ha)
    rw [(h1 a ha).1] at this
    exact (Fl.fin.inj this).symm
  have hDv : domStates d v = D v := by
    have hv : v ∈ Dict.keys d := by
      have : v ∈ (Dict.keys d).filter (fun w => w ∉ r) := by rw [hl]; simp
      exact (List.mem_filter.1 this).1
    obtain ⟨st, hst⟩ := Dict.mem_keys.1 hv
    have hk := hw.domOk hI
    rw [hf.dom] at hk
    have : domStates d v = st := domStates_of_mem hk.keys hst
    rw [this]; exact hD _ hst
  refine ⟨fun a ha => by rw [hat a ha]; exact h1 a ha, fun a ha => ?_⟩
  have := h2 a ha
  rw [hl, sumOver_cons, hDv] at this
  rw [← this]
  congr 1
  refine List.map_congr_left fun s hs => hat _ ?_
  intro p hp
  by_cases hpv : p.1 = v
  · rw [hD p hp, hpv, upd_same]; exact hs
  · rw [upd_ne _ _ hpv]; exact ha p hp

/-- A network in which `f` is the table of `v`. -/
theorem NodeCPT.table {g : DiGraph V} {v : V} {f : Factor II} {B : BN V S K} (h : NodeCPT g B.states v f) (hv : v ∈ B.nodes)
    (hB : ∀ w ∈ g.pred v, w ∈ B.nodes) (hp : ∀ w, w ∈ B.parents v ↔ w ∈ g.pred v) (ht : B.table v = f.at) :
    IsTable B v f ∧ DependsOn (B.table v) (v :: B.parents v) ∧ (∀ a, B.InStates a → 0 ≤ B.table v a) ∧
      ∀ a, B.InStates a → ((B.states v).map fun s => B.table v (upd a v s)).sum = 1 := by
  have hI := storeOf_lawful (V := V) (S := S) (α := Fl K) vt
  have hin : ∀ a, B.InStates a → InDom f.dom a := by
    intro a has
    refine Factor.inDom_of_states h.dom fun w hw => has w ?_
    rcases (h.vars w).1 hw with rfl | hw
    · exact hv
    · exact hB w hw
  refine ⟨⟨h.wf, fun w => by rw [h.left]; simp, fun w => by rw [hp]; exact h.right w, fun w => by rw [hp]; exact h.vars w, h.dom,
    fun obs ho => ?_⟩, fun a b hab => ?_, fun a has => ?_, fun a has => ?_⟩
  · rw [Factor.getValue_full hI h.wf ho, (h.cells.1 _ ho.inDom).1, ht]
  · rw [ht]
    exact Factor.at_congr fun w hw => hab w (List.mem_cons.2 (by rw [hp]; exact (h.vars w).1 hw))
  · rw [ht]; exact (h.cells.1 a (hin a has)).2
  · rw [ht]; exact h.cells.2 a (hin a has)

/-- The network of a family of tables. -/
def cptNet (g : DiGraph V) (D : V → List S) (F : V → Factor II) : BN V S K := ⟨g.nodes, g.pred, D, fun v => (F v).at⟩

theorem cptNet_ok {g : DiGraph V} (hg : g.WF) (ha : g.Acyclic) {D : V → List S} (hD : ∀ v ∈ g.nodes, (D v).Nodup ∧ D v ≠ [])
    {F : V → Factor II} (hF : ∀ v ∈ g.nodes, NodeCPT g D v (F v)) :
    (cptNet g D F).Valid ∧ (cptNet g D F).Normalised ∧ (cptNet g D F).NonNeg ∧
      ∀ v ∈ g.nodes, IsTable (cptNet g D F) v (F v) := by
  have key : ∀ v ∈ g.nodes, _ := fun v hv => (hF v hv).table (B := cptNet g D F) hv
    (fun w hw => (hg.ends _ (DiGraph.mem_pred.1 hw)).1) (fun w => Iff.rfl) rfl
  refine ⟨⟨hg.nodes, fun v _ p hp => (hg.ends _ (DiGraph.mem_pred.1 hp)).1, fun v hv => ?_, fun v hv => (hD v hv).1,
    fun v hv => (hD v hv).2, fun v hv => (key v hv).2.1⟩, fun v hv => (key v hv).2.2.2, fun v hv => (key v hv).2.2.1,
    fun v hv => (key v hv).1⟩
  exact ha v (Relation.TransGen.mono (fun a b hab => DiGraph.mem_pred.1 hab.2) _ _ hv)

/-! ### Setting them one after the other -/

/-- A loop that sets the tables `F` for the variables `xs` of a causal model; the states of the variables `kn` are known. -/
theorem scmLoop {g : DiGraph V} {D : V → List S} {F : V → Factor II} {endo : List V} {cast check : Bool} {kn : List V}
    (step : SCM II LL → V → Py (SCM II LL)) (xs : List V) (hx : ∀ x ∈ xs, x ∈ g.nodes) (hF : ∀ x ∈ xs, NodeCPT g D x (F x))
    (hdeg : ∀ x ∈ xs, x ∈ endo → (F x).isDegenerate = .ok true)
    (hs : ∀ m : SCM II LL, DagModel.Known g D m.base → (∀ v ∈ kn, Dict.get? m.base.domains v = some (some (D v))) →
      ∀ x ∈ xs, step m x = m.setFactor x (some (.multi (F x))))
    {m : SCM II LL} (hm : DagModel.Known g D m.base) (hk : ∀ v ∈ kn, Dict.get? m.base.domains v = some (some (D v)))
    (he : m.endogenous = endo) (hc : m.cast = cast) (hch : m.base.check = check) :
    ∃ m', xs.foldlM step m = .ok m' ∧ DagModel.Known g D m'.base ∧
      (∀ v, v ∈ kn ∨ v ∈ xs → Dict.get? m'.base.domains v = some (some (D v))) ∧ m'.endogenous = endo ∧ m'.cast = cast ∧
      m'.base.check = check ∧
      ∀ w, Dict.get? m'.base.factors w = if w ∈ xs then some (some (.multi (F w))) else Dict.get? m.base.factors w := by
  induction xs generalizing m kn with
  | nil => exact ⟨m, rfl, hm, fun v hv => hk v (by simpa using hv), he, hc, hch, by simp⟩
  | cons x xs ih =>
    have hfx := (hF x List.mem_cons_self).fits (vt := vt) (hx x List.mem_cons_self)
    obtain ⟨b, b1, b2, b3, b4, b5⟩ := DagModel.setFactor_known hm hfx
    have hprep : SCM.prepare m.endogenous m.cast m.base.check x (some (AnyFactor.multi (F x) : AnyFactor II LL)) =
        .ok (some (.multi (F x))) := by
      rw [SCM.prepare]
      split
      · rename_i h
        rw [hdeg x List.mem_cons_self (he ▸ h.1)]; rfl
      · rfl
    have hset : m.setFactor x (some (.multi (F x))) = .ok { m with base := b } := by
      rw [SCM.setFactor, hprep, py_ok_bind, b1]; rfl
    obtain ⟨m', c1, c2, c3, c4, c5, c6, c7⟩ := ih (kn := x :: kn) (m := { m with base := b })
      (fun y hy => hx y (List.mem_cons_of_mem _ hy)) (fun y hy => hF y (List.mem_cons_of_mem _ hy))
      (fun y hy => hdeg y (List.mem_cons_of_mem _ hy))
      (fun m hm hk y hy => hs m hm (fun v hv => hk v (List.mem_cons_of_mem _ hv)) y (List.mem_cons_of_mem _ hy)) b2
      (fun v hv => by
        rcases List.mem_cons.1 hv with rfl | hv
        · exact b5 _ _ (.inr ⟨rfl, rfl⟩)
        · exact b5 _ _ (.inl (hk v hv))) he hc (b3.trans hch)
    refine ⟨m', ?_, c2, fun v hv => c3 v ?_, c4, c5, c6, fun w => ?_⟩
    · rw [List.foldlM_cons, hs m hm hk x List.mem_cons_self, hset]; exact c1
    · rcases hv with hv | hv
      · exact .inl (List.mem_cons_of_mem _ hv)
      · rcases List.mem_cons.1 hv with rfl | hv
        · exact .inl List.mem_cons_self
        · exact .inr hv
    · rw [c7]
      simp only [b4, List.mem_cons]
      by_cases h1 : w ∈ xs
      · simp [h1]
      · by_cases h2 : w = x
        · subst h2; simp [h1]
        · simp [h1, h2]

/-! ### What is drawn -/

/-- What the generator may return for a table over `d` given `right`: when zeros are allowed, numbers that are not negative
with one that is not zero in each column; otherwise negative numbers (`mulitnomial.py:222-225`). -/
structure Draws (allowZero : Bool) (d : Dom V S) (right : List V) (t : List K) : Prop where
  len : t.length = (cards d).prod
  zero : allowZero = true → (∀ x ∈ t, 0 ≤ x) ∧ ∀ a, InDom d a → ∃ b, InDom d b ∧ (∀ v ∈ right, a v = b v) ∧
    (∀ v, v ∉ Dict.keys d → a v = b v) ∧ cellAt d t b ≠ 0
  nonzero : allowZero = false → ∀ x ∈ t, x < 0

theorem Draws.cpt {allowZero : Bool} {d : Dom V S} (hd : DomOk d) {right : List V} {t : List K} (h : Draws allowZero d right t) :
    ∃ f, randomMultinomial II d (some right) allowZero ⟨cards d, t.map Fl.fin⟩ = .ok f ∧ IsCPT f d right ∧
      (allowZero = false → ∀ a, InDom d a → ∃ x, f.sem a = .fin x ∧ 0 < x) := by
  cases allowZero with
  | true =>
    obtain ⟨f, f1, f2⟩ := C20_random vt hd (some right) h.len (h.zero rfl).1 (h.zero rfl).2
    exact ⟨f, f1, f2, fun h => by cases h⟩
  | false =>
    obtain ⟨f, f1, f2, f3⟩ := C20_random_nonzero vt hd (some right) h.len (h.nonzero rfl)
    exact ⟨f, f1, f2, fun _ => f3⟩

theorem Draws.cpt_none {d : Dom V S} (hd : DomOk d) {t : List K} (h : Draws true d [] t) :
    ∃ f, randomMultinomial II d none true ⟨cards d, t.map Fl.fin⟩ = .ok f ∧ IsCPT f d [] :=
  C20_random vt hd none h.len (h.zero rfl).1 (h.zero rfl).2

/-- Positive numbers will do. -/
theorem Draws.of_pos {d : Dom V S} (hd : DomOk d) {right : List V} {t : List K} (hl : t.length = (cards d).prod)
    (hp : ∀ x ∈ t, 0 < x) : Draws true d right t := by
  refine ⟨hl, fun _ => ⟨fun x hx => (hp x hx).le, fun a ha => ⟨a, ha, fun _ _ => rfl, fun _ _ => rfl, ?_⟩⟩, fun h => by cases h⟩
  have hlt : ravel (cards d) (coords d a) < t.length := by
    rw [hl]; exact ravel_lt (validIdx_coords ha)
  rw [cellAt, List.getD_eq_getElem?_getD, List.getElem?_eq_getElem hlt]
  exact (hp _ (List.getElem_mem _)).ne'

/-- The domain of a node after its parents. -/
def famDom (g : DiGraph V) (D : V → List S) (v : V) : Dom V S := (g.pred v ++ [v]).map fun w => (w, D w)

theorem famDom_keys (g : DiGraph V) (D : V → List S) (v : V) : Dict.keys (famDom g D v) = g.pred v ++ [v] := by
  simp [famDom, Dict.keys, Function.comp_def]

theorem pred_notin {g : DiGraph V} (ha : g.Acyclic) (v : V) : v ∉ g.pred v := fun h =>
  ha v (Relation.TransGen.single (DiGraph.mem_pred.1 h))

theorem famDom_ok {g : DiGraph V} (hg : g.WF) (ha : g.Acyclic) {D : V → List S} (hD : ∀ v ∈ g.nodes, (D v).Nodup ∧ D v ≠ [])
    {v : V} (hv : v ∈ g.nodes) : DomOk (famDom g D v) := by
  have hmem : ∀ w ∈ g.pred v ++ [v], w ∈ g.nodes := by
    intro w hw
    rcases List.mem_append.1 hw with hw | hw
    · exact (hg.ends _ (DiGraph.mem_pred.1 hw)).1
    · rw [List.mem_singleton.1 hw]; exact hv
  refine ⟨?_, fun p hp => ?_, fun p hp => ?_⟩
  · rw [famDom_keys]
    refine List.Nodup.append (Ordering.pred_nodup hg v) (by simp) ?_
    intro w h1 h2
    rw [List.mem_singleton.1 h2] at h1
    exact pred_notin ha v h1
  · obtain ⟨w, hw, rfl⟩ := List.mem_map.1 hp
    exact (hD w (hmem w hw)).1
  · obtain ⟨w, hw, rfl⟩ := List.mem_map.1 hp
    exact (hD w (hmem w hw)).2

theorem famDom_others {g : DiGraph V} (ha : g.Acyclic) (D : V → List S) (v : V) : othersOf (famDom g D v) v = g.pred v := by
  rw [othersOf, famDom_keys, List.filter_append]
  have h1 : (g.pred v).filter (fun w => decide (v ≠ w)) = g.pred v := by
    rw [List.filter_eq_self]
    intro w hw
    have : v ≠ w := fun h => pred_notin ha v (h ▸ hw)
    simpa using this
  rw [h1]; simp

theorem famDom_left {g : DiGraph V} (ha : g.Acyclic) (D : V → List S) (v : V) :
    (Dict.keys (famDom g D v)).filter (fun w => w ∉ g.pred v) = [v] := by
  rw [famDom_keys, List.filter_append]
  have h1 : (g.pred v).filter (fun w => decide (w ∉ g.pred v)) = [] := by
    rw [List.filter_eq_nil_iff]; intro w hw; simp [hw]
  rw [h1]; simp [pred_notin ha v]

theorem nodeCPT_fam {g : DiGraph V} (ha : g.Acyclic) {D : V → List S} {v : V} {f : Factor II}
    (h : IsCPT f (famDom g D v) (g.pred v)) : NodeCPT g D v f :=
  ⟨⟨_, _, h, famDom_left ha D v, fun _ => Iff.rfl, fun w hw => by rw [famDom_keys]; simp [hw], fun p hp => by
    obtain ⟨w, _, rfl⟩ := List.mem_map.1 hp; rfl⟩⟩

theorem subdomain_eq {d : Dom V S} {vs : List V} (h : ∀ v ∈ vs, v ∈ Dict.keys d) :
    subdomain d vs = .ok (vs.map fun w => (w, domStates d w)) := by
  refine mapM_ok fun v hv => ?_
  obtain ⟨st, hst⟩ := Option.isSome_iff_exists.1 (Dict.get?_isSome.2 (h v hv))
  simp [Dict.get, hst, domStates]

theorem nonempty_factor : Nonempty (Factor II) := by
  obtain ⟨f, _⟩ := C20_random (K := K) vt (d := ([] : Dom V S)) ⟨by simp [Dict.keys], by simp, by simp⟩ none (draws := [1])
    (by simp [cards]) (by simp) (fun a ha => ⟨a, ha, fun _ _ => rfl, fun _ _ => rfl, by simp [cellAt, cards, coords, ravel]⟩)
  exact ⟨f⟩

/-! ### Structural causal models -/

/-- **C80** `fill_random_factors`: whatever is drawn, the result is the causal model of a valid and normalised network
with the given states, whose equations are zero-one.  The model may be new or filled before (with the same states). -/
theorem C80_fill {g : DiGraph V} (hg : g.WF) (ha : g.Acyclic) {doms : Dom V S} (hd : DomOk doms)
    (hcov : ∀ v ∈ g.nodes, v ∈ Dict.keys doms) {m : SCM II LL} (hm : DagModel.Known g (domStates doms) m.base)
    (hend : ∀ x ∈ m.endogenous, x ∈ g.nodes) (hroot : ∀ u ∈ m.exogenous, g.pred u = []) (hne : m.endogenous = [] → g.edges = [])
    {pick : V → Obs V Nat → V → Nat} (hp : ∀ x ∈ m.endogenous, ∀ s, pick x s x < (domStates doms x).length)
    {t : V → List K} (ht : ∀ u ∈ m.exogenous, Draws true [(u, domStates doms u)] [] (t u)) :
    ∃ m' B, m.fillRandomFactors pick (fun u => (t u).map Fl.fin) doms = .ok m' ∧ m'.Rep B ∧ B.Valid ∧ B.Normalised ∧ B.NonNeg ∧
      B.nodes = g.nodes ∧ B.parents = g.pred ∧ B.states = domStates doms ∧ m'.endogenous = m.endogenous ∧ m'.cast = m.cast ∧
      m'.base.check = m.base.check ∧ DagModel.Known g (domStates doms) m'.base ∧
      ∀ v ∈ g.nodes, Dict.get? m'.base.domains v = some (some (domStates doms v)) := by
  classical
  have hI := storeOf_lawful (V := V) (S := S) (α := Fl K) vt
  have hD : ∀ v ∈ g.nodes, (domStates doms v).Nodup ∧ domStates doms v ≠ [] := by
    intro v hv
    obtain ⟨st, hst⟩ := Dict.mem_keys.1 (hcov v hv)
    have : domStates doms v = st := domStates_of_mem hd.keys hst
    rw [this]; exact ⟨hd.states _ hst, hd.nonempty _ hst⟩
  have hpn : ∀ v ∈ g.nodes, ∀ w ∈ g.pred v ++ [v], w ∈ g.nodes := by
    intro v hv w hw
    rcases List.mem_append.1 hw with hw | hw
    · exact (hg.ends _ (DiGraph.mem_pred.1 hw)).1
    · rw [List.mem_singleton.1 hw]; exact hv
  haveI := nonempty_factor (V := V) (S := S) (K := K) (vt := vt)
  have hexm : ∀ u, u ∈ m.exogenous ↔ u ∈ g.nodes ∧ u ∉ m.endogenous := by
    intro u
    rw [SCM.exogenous, List.mem_filter, hm.graph]; simp
  -- the factors that will be set
  have hex : ∀ v, ∃ f : Factor II, v ∈ g.nodes → IsCPT f (famDom g (domStates doms) v) (g.pred v) ∧
      (v ∈ m.endogenous → randomDeterministic II (famDom g (domStates doms) v) (some (g.pred v)) (pick v) = .ok f ∧
        ∀ a, InDom (famDom g (domStates doms) v) a → f.sem a = .fin 0 ∨ f.sem a = .fin 1) ∧
      (v ∉ m.endogenous → randomMultinomial II [(v, domStates doms v)] none true ⟨cards [(v, domStates doms v)], (t v).map Fl.fin⟩ = .ok f) := by
    intro v
    by_cases hv : v ∈ g.nodes
    swap
    · exact ⟨Classical.arbitrary _, fun h => absurd h hv⟩
    have hok := famDom_ok hg ha hD hv
    by_cases he : v ∈ m.endogenous
    · obtain ⟨f, f1, f2, c, _, _, f3⟩ := C80_equation (K := K) (vt := vt) hok (by simp [famDom]) (right := g.pred v)
        (fun w hw => by rw [famDom_keys]; simp [hw]) (Ordering.pred_nodup hg v) (pick := pick v) (by
          intro s p hpd hpr
          obtain ⟨w, hw, rfl⟩ := List.mem_map.1 hpd
          rcases List.mem_append.1 hw with hw | hw
          · exact absurd hw hpr
          · rw [List.mem_singleton.1 hw]; exact hp v he s)
      refine ⟨f, fun _ => ⟨f2, fun _ => ⟨f1, fun a has => ?_⟩, fun h => absurd he h⟩⟩
      rw [f3 a has]
      split
      · exact .inr rfl
      · exact .inl rfl
    · have hu := (hexm v).2 ⟨hv, he⟩
      have hfd : famDom g (domStates doms) v = [(v, domStates doms v)] := by simp [famDom, hroot v hu]
      rw [hfd] at hok ⊢
      obtain ⟨f, f1, f2⟩ := (ht v hu).cpt_none (vt := vt) hok
      exact ⟨f, fun _ => ⟨by rw [hroot v hu]; exact f2, fun h => absurd h he, fun _ => f1⟩⟩
  choose F hF using hex
  have hcpt : ∀ v ∈ g.nodes, NodeCPT g (domStates doms) v (F v) := fun v hv => nodeCPT_fam ha (hF v hv).1
  obtain ⟨hB1, hB2, hB3, hB4⟩ := cptNet_ok hg ha hD hcpt
  have h01 : ∀ v ∈ m.endogenous, ∀ a, (cptNet g (domStates doms) F).InStates a →
      (cptNet g (domStates doms) F).table v a = 0 ∨ (cptNet g (domStates doms) F).table v a = 1 := by
    intro v hv a has
    have hn := hend v hv
    have hin : InDom (famDom g (domStates doms) v) a := by
      intro p hpd
      obtain ⟨w, hw, rfl⟩ := List.mem_map.1 hpd
      exact has w (hpn v hn w hw)
    have h1 := ((hcpt v hn).cells.1 a (by rw [(hF v hn).1.dom]; exact hin)).1
    rcases ((hF v hn).2.1 hv).2 a hin with h2 | h2
    · rw [h2] at h1; exact .inl (Fl.fin.inj h1).symm
    · rw [h2] at h1; exact .inr (Fl.fin.inj h1).symm
  obtain ⟨m1, a1, a2, a3, a4, a5, a6, a7⟩ := scmLoop (g := g) (D := domStates doms) (F := F) (endo := m.endogenous) (kn := [])
    (SCM.fillEquation pick doms) m.endogenous hend (fun x hx => hcpt x (hend x hx))
    (fun x hx _ => (hB4 x (hend x hx)).isDegenerate hB1 (hend x hx) (h01 x hx))
    (fun m' hm' _ x hx => by
      have hn := hend x hx
      rw [SCM.fillEquation, varParentsDomain, DiGraph.predecessors, hm'.graph, if_pos hn, py_ok_bind,
        subdomain_eq (fun w hw => hcov w (hpn x hn w hw)), py_ok_bind]
      show (do
        let f ← randomDeterministic II (famDom g (domStates doms) x) (some (othersOf (famDom g (domStates doms) x) x)) (pick x)
        m'.setFactor x (some (.multi f))) = _
      rw [famDom_others ha, ((hF x hn).2.1 hx).1, py_ok_bind]) hm (by simp) rfl rfl rfl
  have hexo : m1.exogenous = m.exogenous := by rw [SCM.exogenous, SCM.exogenous, a2.graph, hm.graph, a4]
  obtain ⟨m2, b1, b2, b3, b4, b5, b6, b7⟩ := scmLoop (g := g) (D := domStates doms) (F := F) (endo := m.endogenous)
    (cast := m.cast) (check := m.base.check) (kn := m.endogenous) (m := m1)
    (SCM.fillMarginal (fun u => (t u).map Fl.fin) doms) m.exogenous (fun u hu => ((hexm u).1 hu).1)
    (fun u hu => hcpt u ((hexm u).1 hu).1) (fun u hu he => absurd he ((hexm u).1 hu).2)
    (fun m' hm' _ u hu => by
      have hn := (hexm u).1 hu
      rw [SCM.fillMarginal, subdomain_eq (fun w hw => by rw [List.mem_singleton.1 hw]; exact hcov u hn.1), py_ok_bind]
      show (do
        let f ← randomMultinomial II [(u, domStates doms u)] none true ⟨cards [(u, domStates doms u)], (t u).map Fl.fin⟩
        m'.setFactor u (some (.multi f))) = _
      rw [(hF u hn.1).2.2 hn.2, py_ok_bind]) a2
    (fun v hv => a3 v (.inr hv)) a4 a5 a6
  have hall : ∀ v ∈ g.nodes, Dict.get? m2.base.factors v = some (some (.multi (F v))) := by
    intro v hv
    rw [b7]
    by_cases hu : v ∈ m.exogenous
    · rw [if_pos hu]
    · rw [if_neg hu, a7, if_pos]
      by_contra he
      exact hu ((hexm v).2 ⟨hv, he⟩)
  refine ⟨m2, cptNet g (domStates doms) F, ?_, ⟨by rw [b2.graph]; exact hg, by rw [b2.graph]; rfl, fun v hv p => by
    rw [b2.graph]; exact DiGraph.mem_pred, by rw [b2.factors, b2.graph], fun v hv => ⟨_, hall v hv, hB4 v hv⟩,
    fun v hv _ => h01 v (b4 ▸ hv), fun _ v hv f hf => ?_, fun h => by rw [b2.graph]; exact hne (b4 ▸ h)⟩, hB1, hB2, hB3, rfl, rfl, rfl,
    b4, b5, b6, b2, fun v hv => b3 v ?_⟩
  · rw [SCM.fillRandomFactors, SCM.fillRandomEquations, a1, py_ok_bind, SCM.fillRandomMarginals, hexo]; exact b1
  · rw [b4] at hv
    rw [hall v (hend v hv)] at hf
    injection hf with hf
    injection hf with hf
    rw [← hf]; rfl
  · by_cases he : v ∈ m.endogenous
    · exact .inl he
    · exact .inr ((hexm v).2 ⟨hv, he⟩)

/-- **C80** the same for a new model over an acyclic graph whose endogenous variables are those with parents: nothing
else is asked of the graph. -/
theorem C80_fill_new {g : DiGraph V} (hg : g.WF) (ha : g.Acyclic) {doms : Dom V S} (hd : DomOk doms)
    (hcov : ∀ v ∈ g.nodes, v ∈ Dict.keys doms) (cast check : Bool)
    {pick : V → Obs V Nat → V → Nat} (hp : ∀ x ∈ g.nodes, ∀ s, pick x s x < (domStates doms x).length)
    {t : V → List K} (ht : ∀ u ∈ g.nodes, g.pred u = [] → Draws true [(u, domStates doms u)] [] (t u)) :
    ∃ m m' B, (SCM.init g none cast check : Py (SCM II LL)) = .ok m ∧
      m.fillRandomFactors pick (fun u => (t u).map Fl.fin) doms = .ok m' ∧ m'.Rep B ∧ B.Valid ∧ B.Normalised ∧ B.NonNeg ∧
      B.nodes = g.nodes ∧ B.parents = g.pred ∧ B.states = domStates doms := by
  obtain ⟨b, hb⟩ : ∃ b, (DagModel.init g check : Py (DagModel (AnyFactor II LL) V S)) = .ok b := by
    rw [DagModel.init, (DiGraph.hasCycle_iff hg).2 ha]; exact ⟨_, rfl⟩
  have hk := DagModel.known_init (D := domStates doms) hb
  have hmem : ∀ x, x ∈ SCM.defaultEndo g ↔ x ∈ g.nodes ∧ g.pred x ≠ [] := by
    intro x; rw [SCM.defaultEndo, List.mem_filter]; simp [List.length_pos_iff]
  have hu : ∀ u, u ∈ (⟨b, SCM.defaultEndo g, cast⟩ : SCM II LL).exogenous → u ∈ g.nodes ∧ g.pred u = [] := by
    intro u hu
    rw [SCM.exogenous, List.mem_filter, hk.graph] at hu
    refine ⟨hu.1, ?_⟩
    by_contra h
    have := hu.2
    simp [hmem, hu.1, h] at this
  obtain ⟨m', B, h1, h2, h3, h4, h5, h6, h7, h8, _⟩ := C80_fill hg ha hd hcov (m := ⟨b, SCM.defaultEndo g, cast⟩) hk
    (fun x hx => ((hmem x).1 hx).1) (fun u h => (hu u h).2) (fun h => by
      rw [List.eq_nil_iff_forall_not_mem]
      intro e he
      have := (hmem e.2).2 ⟨(hg.ends _ he).2, List.ne_nil_of_mem (DiGraph.mem_pred.2 he)⟩
      have h : SCM.defaultEndo g = [] := h
      rw [h] at this; cases this) (pick := pick) (fun x hx => hp x ((hmem x).1 hx).1) (fun u h => ht u (hu u h).1 (hu u h).2)
  refine ⟨⟨b, SCM.defaultEndo g, cast⟩, m', B, ?_, h1, h2, h3, h4, h5, h6, h7, h8⟩
  rw [SCM.init, hb]; rfl

/-! ### `randomize_factors` of causal models -/

theorem copy_known {m : SCM II LL} {B : BN V S K} (h : m.Rep B) (hB : B.Valid) :
    ∃ m', m.copy = .ok m' ∧ m'.base.check = true ∧ DagModel.Known m.base.graph B.states m'.base ∧
      ∀ v ∈ B.nodes, Dict.get? m'.base.domains v = some (some (B.states v)) := by
  obtain ⟨l, hl, hk, ht⟩ := h.facs hB
  have he : SCM.endoOr m.base.graph (some m.endogenous) = m.endogenous := SCM.endoOr_some h.endo
  obtain ⟨e1, _, e3⟩ := SCM.rep_built hB h.wf h.nodes h.parents (by rw [hk]) ht (some m.endogenous) m.cast true
    (by rw [he]; exact h.equations) rfl
  rw [← hl] at e1
  have hkeys : ∀ v ∈ B.nodes, v ∈ Dict.keys (l.map fun p => (p.1, SCM.prep (SCM.endoOr m.base.graph (some m.endogenous)) m.cast true p.1 p.2)) := by
    intro v hv
    rw [← hk] at hv
    simpa [Dict.keys, Function.comp_def] using hv
  have hdom : ∀ v ∈ B.nodes, Dict.get? (DagModel.after m.base.graph B.states true (l.map fun p => (p.1,
      SCM.prep (SCM.endoOr m.base.graph (some m.endogenous)) m.cast true p.1 p.2))).domains v = some (some (B.states v)) := by
    intro v hv
    show Dict.get? (m.base.graph.nodes.map fun v => (v, _)) v = _
    rw [Dict.get?_map, if_pos (by rw [h.nodes]; exact hv), if_pos (hkeys v hv)]
  refine ⟨_, e1, rfl, ⟨rfl, ?_, ?_, fun v st hs => ?_⟩, hdom⟩
  · show Dict.keys (m.base.graph.nodes.map fun v => (v, _)) = _
    simp [Dict.keys, Function.comp_def]
  · show Dict.keys (m.base.graph.nodes.map fun v => (v, _)) = _
    simp [Dict.keys, Function.comp_def]
  · by_cases hv : v ∈ B.nodes
    · rw [hdom v hv] at hs; simpa using hs.symm
    · have : Dict.get? (m.base.graph.nodes.map fun v => (v, if v ∈ Dict.keys (l.map fun p => (p.1,
          SCM.prep (SCM.endoOr m.base.graph (some m.endogenous)) m.cast true p.1 p.2)) then some (B.states v) else none)) v = some (some st) := hs
      rw [Dict.get?_map, if_neg (by rw [h.nodes]; exact hv)] at this
      cases this

/-- The network with other tables for some variables. -/
def BN.withTables (B : BN V S K) (xs : List V) (T : V → (V → S) → K) : BN V S K :=
  { B with table := fun v => if v ∈ xs then T v else B.table v }

/-- **C80** `randomize_factors(variables, inplace, allow_zero)`: variables that are not endogenous get new conditional
tables, without zeros unless these are allowed, and the rest of the model is kept, in place or in a copy. -/
theorem C80_randomize {m : SCM II LL} {B : BN V S K} (h : m.Rep B) (hB : B.Valid) (hk : DagModel.Known m.base.graph B.states m.base)
    (hdoms : ∀ v ∈ B.nodes, Dict.get? m.base.domains v = some (some (B.states v))) {xs : List V}
    (hx : ∀ x ∈ xs, x ∈ B.nodes ∧ x ∉ m.endogenous) (inPlace allowZero : Bool) {t : V → List K}
    (ht : ∀ x ∈ xs, Draws allowZero (famDom m.base.graph B.states x) (m.base.graph.pred x) (t x)) :
    ∃ m' T, m.randomizeFactors xs inPlace allowZero (fun x => (t x).map Fl.fin) = .ok m' ∧ m'.Rep (BN.withTables B xs T) ∧
      (BN.withTables B xs T).Valid ∧ (B.Normalised → (BN.withTables B xs T).Normalised) ∧ (B.NonNeg → (BN.withTables B xs T).NonNeg) ∧
      m'.endogenous = m.endogenous ∧ m'.cast = m.cast ∧
      (∀ v, v ∉ xs → Dict.get? m'.base.factors v = Dict.get? m.base.factors v) ∧
      m'.base.graph = m.base.graph ∧ (∀ v ∈ B.nodes, Dict.get? m'.base.domains v = some (some (B.states v))) ∧
      (∀ v ∈ xs, ∀ f, Dict.get? m'.base.factors v = some (some f) → f.isDet = false) ∧
      (allowZero = false → ∀ v ∈ xs, ∀ a, B.InStates a → 0 < T v a) ∧ DagModel.Known m.base.graph B.states m'.base := by
  classical
  have hacy : m.base.graph.Acyclic := by
    intro v hv
    refine hB.acyclic v (Relation.TransGen.mono (fun u w huw => ?_) _ _ hv)
    have hw : w ∈ B.nodes := by rw [← h.nodes]; exact (h.wf.ends _ huw).2
    exact ⟨hw, (h.parents w hw u).2 huw⟩
  have hpn : ∀ v ∈ B.nodes, ∀ w ∈ m.base.graph.pred v ++ [v], w ∈ B.nodes := by
    intro v hv w hw
    rcases List.mem_append.1 hw with hw | hw
    · rw [← h.nodes]; exact (h.wf.ends _ (DiGraph.mem_pred.1 hw)).1
    · rw [List.mem_singleton.1 hw]; exact hv
  haveI := nonempty_factor (V := V) (S := S) (K := K) (vt := vt)
  have hex : ∀ x, ∃ f : Factor II, x ∈ xs → randomMultinomial II (famDom m.base.graph B.states x) (some (m.base.graph.pred x)) allowZero
      ⟨cards (famDom m.base.graph B.states x), (t x).map Fl.fin⟩ = .ok f ∧ NodeCPT m.base.graph B.states x f ∧
        (allowZero = false → ∀ a, InDom f.dom a → ∃ y, f.sem a = .fin y ∧ 0 < y) := by
    intro x
    by_cases hxs : x ∈ xs
    · obtain ⟨f, f1, f2, f3⟩ := (ht x hxs).cpt (vt := vt) (famDom_ok h.wf hacy (fun v hv => by
        rw [h.nodes] at hv; exact ⟨hB.nodupStates v hv, hB.nonempty v hv⟩) (by rw [h.nodes]; exact (hx x hxs).1))
      exact ⟨f, fun _ => ⟨f1, nodeCPT_fam hacy f2, by rw [f2.dom]; exact f3⟩⟩
    · exact ⟨Classical.arbitrary _, fun h => absurd h hxs⟩
  choose F hF using hex
  -- the object to work on
  obtain ⟨m0, o1, o2, o3, o4, o5, o6⟩ : ∃ m0 : SCM II LL, (if inPlace then .ok m else m.copy) = .ok m0 ∧
      DagModel.Known m.base.graph B.states m0.base ∧ (∀ v ∈ B.nodes, Dict.get? m0.base.domains v = some (some (B.states v))) ∧
      m0.endogenous = m.endogenous ∧ m0.cast = m.cast ∧ m0.base.factors = m.base.factors := by
    cases inPlace with
    | true => exact ⟨m, rfl, hk, hdoms, rfl, rfl, rfl⟩
    | false =>
      obtain ⟨m0, c1, _, c3, c4⟩ := copy_known h hB
      obtain ⟨m0', d1, _, _, d4, d5, d6⟩ := h.copy hB
      rw [c1] at d1
      injection d1 with d1
      subst d1
      exact ⟨m0, c1, c3, c4, d5, d6, d4⟩
  obtain ⟨m', a1, a2, a3, a4, a5, a6, a7⟩ := scmLoop (F := F) (kn := B.nodes) (SCM.randomizeOne allowZero (fun x => (t x).map Fl.fin)) xs
    (fun x hxs => by rw [h.nodes]; exact (hx x hxs).1) (fun x hxs => (hF x hxs).2.1)
    (fun x hxs he => absurd he (hx x hxs).2)
    (fun m1 hm1 hd1 x hxs => by
      have hn := (hx x hxs).1
      have hdom : m1.knownDomain (m.base.graph.pred x ++ [x]) = .ok (famDom m.base.graph B.states x) := by
        refine mapM_ok fun w hw => ?_
        simp [Dict.get, hd1 w (hpn x hn w hw)]
      rw [SCM.randomizeOne, DiGraph.predecessors, hm1.graph, if_pos (by rw [h.nodes]; exact hn), py_ok_bind, hdom, py_ok_bind]
      rw [famDom_others hacy, (hF x hxs).1, py_ok_bind]) o2 o3 o4 o5 rfl
  have key : ∀ x ∈ xs, _ := fun x hxs => (hF x hxs).2.1.table (B := BN.withTables B xs fun v => (F v).at) (hx x hxs).1
    (fun w hw => hpn x (hx x hxs).1 w (by simp [hw])) (fun w => (h.parents x (hx x hxs).1 w).trans DiGraph.mem_pred.symm)
    (by simp [BN.withTables, hxs])
  have hother : ∀ v, v ∉ xs → (BN.withTables B xs fun v => (F v).at).table v = B.table v := fun v hv => by simp [BN.withTables, hv]
  have hvalid : (BN.withTables B xs fun v => (F v).at).Valid := by
    refine ⟨hB.nodes, hB.parents, hB.acyclic, hB.nodupStates, hB.nonempty, fun v hv => ?_⟩
    by_cases hvx : v ∈ xs
    · exact (key v hvx).2.1
    · rw [hother v hvx]; exact hB.scope v hv
  refine ⟨m', fun v => (F v).at, ?_, ⟨by rw [a2.graph]; exact h.wf, by rw [a2.graph]; exact h.nodes, fun v hv p => by
    rw [a2.graph]; exact h.parents v hv p, by rw [a2.factors, a2.graph], fun v hv => ?_, fun v hv hn a has => ?_, fun hc v hv f hf => ?_,
    fun he => by rw [a2.graph]; exact h.endo (a4 ▸ he)⟩, hvalid, fun hN v hv a has => ?_, fun hN v hv a has => ?_, a4, a5, fun v hv => by
      rw [a7, if_neg hv, o6], a2.graph, fun v hv => a3 v (.inl hv), fun v hv f hf => ?_, fun hz v hv a ha => ?_, a2⟩
  · cases inPlace with
    | true => injection o1 with o1; subst o1; exact a1
    | false =>
      have o1 : m.copy = .ok m0 := o1
      simp only [SCM.randomizeFactors, Bool.false_eq_true, if_false, o1, py_ok_bind]; exact a1
  · rw [a7]
    by_cases hvx : v ∈ xs
    · rw [if_pos hvx]; exact ⟨_, rfl, (key v hvx).1⟩
    · rw [if_neg hvx, o6]
      obtain ⟨f, f1, f2⟩ := h.table v hv
      exact ⟨f, f1, f2.congr rfl (fun _ _ => rfl) (hother v hvx)⟩
  · rw [a4] at hv
    have hvx : v ∉ xs := fun hvx => (hx v hvx).2 hv
    rw [hother v hvx]
    exact h.equations v hv hn a has
  · rw [a4] at hv
    have hvx : v ∉ xs := fun hvx => (hx v hvx).2 hv
    rw [a7, if_neg hvx, o6] at hf
    exact h.casted (a5 ▸ hc) v hv f hf
  · by_cases hvx : v ∈ xs
    · exact (key v hvx).2.2.2 a has
    · rw [hother v hvx]; exact hN v hv a has
  · by_cases hvx : v ∈ xs
    · exact (key v hvx).2.2.1 a has
    · rw [hother v hvx]; exact hN v hv a has
  · rw [a7, if_pos hv] at hf
    injection hf with hf
    injection hf with hf
    rw [← hf]; rfl
  · have hF' := hF v hv
    have hin : InDom (F v).dom a := Factor.inDom_of_states hF'.2.1.dom fun w hw => ha w (by
      rcases (hF'.2.1.vars w).1 hw with rfl | hw
      · exact (hx _ hv).1
      · exact hpn v (hx v hv).1 w (by simp [hw]))
    obtain ⟨y, y1, y2⟩ := hF'.2.2 hz a hin
    rw [(hF'.2.1.cells.1 a hin).1] at y1
    injection y1 with y1
    show 0 < (F v).at a
    rw [y1]; exact y2

/-! ### `randomize_factors` of networks -/

theorem eq_singleton {l : List V} (hn : l.Nodup) {v : V} (h : ∀ w, w ∈ l ↔ w = v) : l = [v] := by
  cases l with
  | nil => exact absurd ((h v).2 rfl) (by simp)
  | cons a l =>
    have ha : a = v := (h a).1 List.mem_cons_self
    subst ha
    cases l with
    | nil => rfl
    | cons b l =>
      have hb : b = a := (h b).1 (by simp)
      subst hb
      simp at hn

/-- **C80** `BayesianNetwork.randomize_factors(domains)`: whatever is drawn, the result represents a valid and normalised
network over the graph with the given states. -/
theorem C80_network {g : DiGraph V} (hg : g.WF) (ha : g.Acyclic) {doms : Dom V S} (hd : DomOk doms)
    (hcov : ∀ v ∈ g.nodes, v ∈ Dict.keys doms) {m : DagModel (AnyFactor II LL) V S} (hm : DagModel.Known g (domStates doms) m)
    {t : V → List K} (ht : ∀ v ∈ g.nodes, Draws true (doms.filter fun p => p.1 = v ∨ p.1 ∈ g.pred v) (g.pred v) (t v)) :
    ∃ m' B, m.randomizeFactors doms (fun v => (t v).map Fl.fin) = .ok m' ∧ Represents (I := II) m' B ∧ B.Valid ∧ B.Normalised ∧ B.NonNeg ∧
      B.nodes = g.nodes ∧ B.parents = g.pred ∧ B.states = domStates doms ∧ m'.check = m.check := by
  classical
  have hD : ∀ v ∈ g.nodes, (domStates doms v).Nodup ∧ domStates doms v ≠ [] := by
    intro v hv
    obtain ⟨st, hst⟩ := Dict.mem_keys.1 (hcov v hv)
    have : domStates doms v = st := domStates_of_mem hd.keys hst
    rw [this]; exact ⟨hd.states _ hst, hd.nonempty _ hst⟩
  have hkeys : ∀ v w, w ∈ Dict.keys (doms.filter fun p => p.1 = v ∨ p.1 ∈ g.pred v) ↔ w ∈ Dict.keys doms ∧ (w = v ∨ w ∈ g.pred v) := by
    intro v w
    constructor
    · intro h
      obtain ⟨st, hst⟩ := Dict.mem_keys.1 h
      obtain ⟨h1, h2⟩ := List.mem_filter.1 hst
      exact ⟨Dict.mem_keys_of_mem h1, by simpa using h2⟩
    · intro h
      obtain ⟨st, hst⟩ := Dict.mem_keys.1 h.1
      exact Dict.mem_keys.2 ⟨st, List.mem_filter.2 ⟨hst, by simpa using h.2⟩⟩
  have hfd : ∀ v, DomOk (doms.filter fun p => p.1 = v ∨ p.1 ∈ g.pred v) := fun v =>
    ⟨hd.keys.sublist (List.Sublist.map _ List.filter_sublist), fun p hp => hd.states p (List.mem_filter.1 hp).1,
      fun p hp => hd.nonempty p (List.mem_filter.1 hp).1⟩
  haveI := nonempty_factor (V := V) (S := S) (K := K) (vt := vt)
  have hex : ∀ v, ∃ f : Factor II, v ∈ g.nodes → randomMultinomial II (doms.filter fun p => p.1 = v ∨ p.1 ∈ g.pred v) (some (g.pred v)) true
      ⟨cards (doms.filter fun p => p.1 = v ∨ p.1 ∈ g.pred v), (t v).map Fl.fin⟩ = .ok f ∧ NodeCPT g (domStates doms) v f := by
    intro v
    by_cases hv : v ∈ g.nodes
    swap
    · exact ⟨Classical.arbitrary _, fun h => absurd h hv⟩
    obtain ⟨f, f1, f2, _⟩ := (ht v hv).cpt (vt := vt) (hfd v)
    refine ⟨f, fun _ => ⟨f1, ⟨_, _, f2, eq_singleton ((hfd v).keys.filter _) fun w => ?_, fun _ => Iff.rfl, fun w hw => ?_, fun p hp => ?_⟩⟩⟩
    · rw [List.mem_filter, hkeys]
      constructor
      · rintro ⟨⟨_, h1⟩, h2⟩
        exact h1.resolve_right (by simpa using h2)
      · rintro rfl
        exact ⟨⟨hcov _ hv, .inl rfl⟩, by simpa using pred_notin ha _⟩
    · exact (hkeys v w).2 ⟨hcov w (hg.ends _ (DiGraph.mem_pred.1 hw)).1, .inr hw⟩
    · exact (domStates_of_mem hd.keys (List.mem_filter.1 hp).1).symm
  choose F hF using hex
  obtain ⟨hB1, hB2, hB3, hB4⟩ := cptNet_ok hg ha hD fun v hv => (hF v hv).2
  obtain ⟨m', a1, a2, a3, a4⟩ := DagModel.setLoop (DagModel.randomizeOne doms fun v => (t v).map Fl.fin)
    (fun v => (AnyFactor.multi (F v) : AnyFactor II LL)) m.check g.nodes (fun x hx => (hF x hx).2.fits hx)
    (fun m1 hm1 _ x hx => by
      have hpa : m1.getParents [x] = .ok (g.pred x) := by
        rw [DagModel.getParents, hm1.graph]
        simp only [List.mapM_cons, List.mapM_nil, DiGraph.predecessors, if_pos hx, py_ok_bind]
        show Except.ok _ = _
        have hn : (g.pred x).reverse.Nodup := List.nodup_reverse.2 (Ordering.pred_nodup hg x)
        simp [hn.dedup]
      rw [DagModel.randomizeOne, hpa, py_ok_bind]
      simp only [(hF x hx).1, py_ok_bind]) hm rfl
  refine ⟨m', cptNet g (domStates doms) F, ?_, ⟨by rw [a2.graph]; exact hg, by rw [a2.graph]; rfl, fun v hv p => by
    rw [a2.graph]; exact DiGraph.mem_pred, by rw [a2.factors, a2.graph], fun v hv => ⟨_, F v, by
      rw [a4, if_pos (show v ∈ g.nodes from hv)], rfl, hB4 v hv⟩⟩, hB1, hB2, hB3, rfl, rfl, rfl, a3⟩
  rw [DagModel.randomizeFactors, hm.graph]
  exact a1

/-! ### Examples -/

section Example

def gRnd : DiGraph Char := ⟨['U', 'X', 'Y'], [('U', 'X'), ('X', 'Y')]⟩
def dRnd : Dom Char Char := [('Y', ['0', '1']), ('U', ['0', '1', '2']), ('X', ['0', '1'])]
/-- `X` is drawn as the parity of `U`, `Y` as the other state than that of `X`. -/
def pickRnd (x : Char) (s : Obs Char Nat) (_ : Char) : Nat :=
  match s with
  | [(_, n)] => if x = 'X' then n % 2 else 1 - n % 2
  | _ => 0
def tRnd (_ : Char) : List ℚ := [1, 2, 5]

theorem gRnd_wf : gRnd.WF := ⟨by decide, by decide, by decide⟩
theorem gRnd_acyclic : gRnd.Acyclic := (DiGraph.hasCycle_iff gRnd_wf).1 (by decide +kernel)
theorem dRnd_ok : DomOk dRnd := ⟨by decide, by decide, by decide⟩

/-- The hypotheses of `C80_fill_new` hold for a chain with three drawn tables. -/
theorem C80_example (vt : VType) (cast check : Bool) : ∃ m m' B,
    (SCM.init gRnd none cast check : Py (SCM (IS vt Char) (LS vt Char))) = .ok m ∧
      m.fillRandomFactors pickRnd (fun u => (tRnd u).map Fl.fin) dRnd = .ok m' ∧ m'.Rep B ∧ B.Valid ∧ B.Normalised ∧ B.NonNeg ∧
      B.nodes = gRnd.nodes ∧ B.parents = gRnd.pred ∧ B.states = domStates dRnd := by
  refine C80_fill_new gRnd_wf gRnd_acyclic dRnd_ok (by decide) cast check (pick := pickRnd) (fun x hx s => ?_) (t := tRnd) fun u hu hp => ?_
  · have hlen : 2 ≤ (domStates dRnd x).length := by
      revert x; decide
    refine lt_of_lt_of_le ?_ hlen
    unfold pickRnd
    split
    · split <;> omega
    · omega
  · rcases (by simpa [gRnd] using hu : u = 'U' ∨ u = 'X' ∨ u = 'Y') with rfl | rfl | rfl
    · exact Draws.of_pos ⟨by decide, by decide, by decide⟩ (by decide) (by decide)
    · exact absurd hp (by decide)
    · exact absurd hp (by decide)

/-- The value that a filled model answers, or the error. -/
def rndRun (vt : VType) (after_ : SCM (IS vt Char) (LS vt Char) → Py (SCM (IS vt Char) (LS vt Char))) (v : Char) (o : Obs Char Char) :
    Py (Fl ℚ) := do
  let m ← (SCM.init gRnd none true true : Py (SCM (IS vt Char) (LS vt Char)))
  let m ← m.fillRandomFactors pickRnd (fun u => (tRnd u).map Fl.fin) dRnd
  let m ← after_ m
  match Dict.get? m.base.factors v with
  | some (some (.multi f)) => f.getValue o
  | _ => .error .keyError

/-- What the filled model holds: the marginal is normalised, the equations are those drawn. -/
theorem C80_example_values (vt : VType) :
    rndRun vt .ok 'U' [('U', '2')] = .ok (.fin (5/8)) ∧
    rndRun vt .ok 'X' [('U', '1'), ('X', '1')] = .ok (.fin 1) ∧ rndRun vt .ok 'X' [('U', '2'), ('X', '1')] = .ok (.fin 0) ∧
    rndRun vt .ok 'Y' [('X', '1'), ('Y', '0')] = .ok (.fin 1) := by
  cases vt <;> decide +kernel

/-- **C80** `randomize_factors` on an exogenous variable changes its table; on an endogenous variable of a model that checks
its factors, it is refused with a `ValueError` unless what is drawn happens to be deterministic. -/
theorem C80_endogenous_refused (vt : VType) :
    rndRun vt (fun m => m.randomizeFactors ['U'] false true fun _ => [.fin 1, .fin 1, .fin 2]) 'U' [('U', '2')] = .ok (.fin (1/2)) ∧
    rndRun vt (fun m => m.randomizeFactors ['X'] false true fun _ => List.replicate 6 (.fin 1)) 'U' [('U', '2')] = .error .valueError := by
  cases vt <;> decide +kernel

/-- **C80** `randomize_factors` of a causal model takes the states from the model: a model without factors has none, and
the call fails. -/
theorem C80_no_states (vt : VType) :
    (do let m ← (SCM.init gRnd none true true : Py (SCM (IS vt Char) (LS vt Char)))
        let _ ← m.randomizeFactors ['U'] true true fun _ => [.fin 1, .fin 1, .fin 2]
        return () : Py Unit) = .error .typeError := by
  cases vt <;> decide +kernel

/-- **C80** the states stay those of the first call: filling again with other states is refused. -/
theorem C80_other_states (vt : VType) :
    rndRun vt (fun m => m.fillRandomFactors pickRnd (fun u => (tRnd u).map Fl.fin)
      [('Y', ['0', '1']), ('U', ['0', '1', '2']), ('X', ['n', 'y'])]) 'U' [('U', '2')] = .error .valueError := by
  cases vt <;> decide +kernel

end Example

end Props
end Verif
