import Verif.Model.Intervene
import Verif.Props.ExNet

/-!
# Example structural causal models

Models built from rows of numbers (multinomial tables) or of states (deterministic equations), with names that are
strings.  Used to show that the hypotheses of the theorems on causal models can be met.
-/

set_option linter.unusedSectionVars false
set_option linter.unusedSimpArgs false

namespace Verif

variable {V S K : Type} [DecidableEq V] [DecidableEq S] [Inhabited S] [Field K] [LinearOrder K] {vt : VType}

/-- A deterministic factor is a table when its multinomial version is. -/
theorem DetTable.of_toMultinomial {B : BN V S K} {v : V} {f : DetFactor (labelStoreOf vt : LabelStore V S)} (hf : f.WF)
    (hl : f.leftVars = [v]) {r : Factor (storeOf vt : StoreImpl V S (Fl K))}
    (hr : f.toMultinomial (storeOf vt : StoreImpl V S (Fl K)) = .ok r) (h : IsTable B v r) : DetTable B v f := by
  obtain ⟨r', h1, h2, h3, h4, h5, h6⟩ := Props.C16_to_multinomial (α := Fl K) vt hf hl
  rw [hr] at h1
  injection h1 with h1
  subst h1
  refine ⟨hf, hl, fun w => by rw [← h5]; exact h.right w, fun w => ?_, fun p hp => h.dom p (by rw [h3]; exact hp), fun obs ho => ?_⟩
  · rw [DetFactor.vars, ← h3]; exact h.vars w
  · have hv : v ∈ Dict.keys f.dom := by rw [← h3]; exact (h.vars v).2 (.inl rfl)
    obtain ⟨y, _, hy2, hy3⟩ := h6 obs (asg obs v) ho (ho.covers v hv)
    have := h.value obs (by rw [h3]; exact ho)
    rw [hy3] at this
    refine ⟨_, hy2, ?_⟩
    by_cases e : y = asg obs v
    · simp only [e, if_true] at this ⊢
      injection this with this
      have h1 : (Fl.fin 1 : Fl K) = Fl.fin (B.table v (asg obs)) := this
      injection h1 with h1
      simp [← h1]
    · simp only [e, if_false] at this ⊢
      injection this with this
      have h1 : (Fl.fin 0 : Fl K) = Fl.fin (B.table v (asg obs)) := this
      injection h1 with h1
      simp [← h1]

/-- A table whose factor is degenerate has entries zero and one. -/
theorem IsTable.zero_one {B : BN V S K} (hB : B.Valid) {v : V} (hv : v ∈ B.nodes) {g : Factor (storeOf vt : StoreImpl V S (Fl K))}
    (h : IsTable B v g) (hd : g.isDegenerate = .ok true) : ∀ a, B.InStates a → B.table v a = 0 ∨ B.table v a = 1 := by
  have hI := storeOf_lawful (V := V) (S := S) (α := Fl K) vt
  intro a ha
  have hin : InDom g.dom a := fun p hp => by
    rw [h.dom p hp]
    rcases (h.vars _).1 (Dict.mem_keys_of_mem hp) with e | e
    · rw [e]; exact ha v hv
    · exact ha _ (hB.parents v hv _ e)
  obtain ⟨h1, h2⟩ := fullObs_of_states (h.wf.domOk hI).keys hin
  have hm := Factor.mem_values hI h.wf (Factor.valuesList_ok hI h.wf) hin
  have hval := h.value _ h1
  rw [Factor.getValue_full hI h.wf h1, Factor.WF.sem_congr hI h.wf h2] at hval
  injection hval with hval
  have htab : B.table v (asg (g.dom.map fun p => (p.1, a p.1))) = B.table v a := by
    refine hB.scope v hv _ _ fun w hw => h2 w ((h.vars w).2 (List.mem_cons.1 hw))
  rw [htab] at hval
  rw [hval] at hm
  rw [Factor.isDegenerate, Factor.valuesList_ok hI h.wf, py_ok_bind] at hd
  by_contra hc
  rw [not_or] at hc
  injection hd with hd
  have hd : ((List.map (fun o => g.sem (asg o)) (assignmentSpace g.dom)).filter fun x => x ≠ 0 ∧ x ≠ 1).length = 0 := by
    simpa using hd
  rw [List.length_eq_zero_iff, List.filter_eq_nil_iff] at hd
  refine hd _ hm ?_
  simp only [ne_eq, decide_eq_true_eq]
  constructor
  · intro e
    have e : Fl.fin (B.table v a) = (Fl.fin 0 : Fl K) := e
    injection e with e
    exact hc.1 e
  · intro e
    have e : Fl.fin (B.table v a) = (Fl.fin 1 : Fl K) := e
    injection e with e
    exact hc.2 e

namespace Props

/-- Strings. -/
abbrev PyStr := List Char

/-- A row of numbers, or of states for an equation. -/
inductive SRow (V : Type)
  | num (d : Dom V Char) (vals : List (Fl ℚ)) (v : V)
  | fn (d : Dom V Char) (vals : List Char) (v : V)

variable {V : Type} [DecidableEq V]

namespace SRow
def dom : SRow V → Dom V Char
  | .num d _ _ => d
  | .fn d _ _ => d
def name : SRow V → V
  | .num _ _ v => v
  | .fn _ _ v => v
end SRow

abbrev IS (vt : VType) (V : Type) [DecidableEq V] : StoreImpl V Char (Fl ℚ) := storeOf vt
abbrev LS (vt : VType) (V : Type) [DecidableEq V] : LabelStore V Char := labelStoreOf vt

/-- The factor of a row. -/
def SRow.make (vt : VType) : SRow V → Py (AnyFactor (IS vt V) (LS vt V))
  | .num d vals v => do
    let f ← Factor.make (IS vt V) d vals (some [v]) none
    return .multi f
  | .fn d vals v => do
    let f ← DetFactor.make (LS vt V) d ⟨[vals.length], vals⟩ (some [v]) none
    return .det f

/-- The named factors of the rows. -/
def facsOf (vt : VType) (rows : List (SRow V)) : Py (List (V × AnyFactor (IS vt V) (LS vt V))) :=
  rows.mapM fun r => do
    let f ← r.make vt
    return (r.name, f)

/-- The multinomial version of a factor. -/
def asMulti (vt : VType) : AnyFactor (IS vt V) (LS vt V) → Py (Factor (IS vt V))
  | .multi f => .ok f
  | .det f => f.toMultinomial (IS vt V)

/-- The named multinomial versions of the factors. -/
def multisOf (vt : VType) (l : List (V × AnyFactor (IS vt V) (LS vt V))) : Py (List (V × Factor (IS vt V))) :=
  l.mapM fun p => do
    let r ← asMulti vt p.2
    return (p.1, r)

/-- The network of the multinomial versions of the factors. -/
def bnetOf (vt : VType) (g : DiGraph V) (l : List (V × AnyFactor (IS vt V) (LS vt V))) : Py (DagModel (Factor (IS vt V)) V Char) := do
  let fs ← multisOf vt l
  DagModel.ofDict g (fs.map fun p => (p.1, some p.2)) true

/-- The row is of the shape that the constructor accepts. -/
def SRow.shapeOk : SRow V → Bool
  | .num _ _ _ => true
  | .fn d vals v => ((Dict.keys d).filter fun w => w ∉ (Dict.keys d).filter fun u => u ∉ [v]) = [v] ∧
      vals.length = (cards (d.filter fun p => p.1 ∈ (Dict.keys d).filter fun u => u ∉ [v])).prod

/-- What is evaluated to show that the rows are the tables of a model with the given endogenous variables. -/
def scmCheck (vt : VType) (g : DiGraph V) (rows : List (SRow V)) (endo : List V) : Bool :=
  match facsOf vt rows with
  | .ok l => match multisOf vt l with
    | .ok fs => match DagModel.ofDict g (fs.map fun p => (p.1, some p.2)) true with
      | .ok b => DagModel.allOk (IS vt V) b && decide (b.graph = g) && decide (Dict.keys l = g.nodes) &&
          decide (Dict.keys fs = g.nodes) &&
          fs.all (fun p => p.1 ∉ endo || decide (p.2.isDegenerate = .ok true))
      | .error _ => false
    | .error _ => false
  | .error _ => false

/-- The rows are the tables of a network. -/
structure ScmData (vt : VType) (g : DiGraph V) (rows : List (SRow V)) (endo : List V) (l : List (V × AnyFactor (IS vt V) (LS vt V)))
    (B : BN V Char ℚ) : Prop where
  facs : facsOf vt rows = .ok l
  valid : B.Valid
  norm : B.Normalised
  nonneg : B.NonNeg
  graph : g.WF
  nodes : g.nodes = B.nodes
  parents : ∀ v ∈ B.nodes, ∀ p, p ∈ B.parents v ↔ (p, v) ∈ g.edges
  keys : Dict.keys l = B.nodes
  tables : ∀ p ∈ l, AnyTable B p.1 p.2
  equations : ∀ v ∈ endo, v ∈ B.nodes → ∀ a, B.InStates a → B.table v a = 0 ∨ B.table v a = 1

theorem scmCheck_spec {vt : VType} {g : DiGraph V} {rows : List (SRow V)} {endo : List V} (hd : ∀ r ∈ rows, DomOk r.dom ∧ r.shapeOk = true)
    (h : scmCheck vt g rows endo = true) : ∃ l b, bnetOf vt g l = .ok b ∧ ScmData vt g rows endo l (BN.ofModel (IS vt V) b) := by
  have hI := storeOf_lawful (V := V) (S := Char) (α := Fl ℚ) vt
  rw [scmCheck] at h
  cases hl : facsOf vt rows with
  | error e => rw [hl] at h; cases h
  | ok l =>
    rw [hl] at h
    simp only at h
    cases hfs : multisOf vt l with
    | error e => rw [hfs] at h; cases h
    | ok fs =>
      rw [hfs] at h
      simp only at h
      cases hb : DagModel.ofDict g (fs.map fun p => (p.1, some p.2)) true with
      | error e => rw [hb] at h; cases h
      | ok b =>
        rw [hb] at h
        simp only [Bool.and_eq_true, decide_eq_true_eq, List.all_eq_true, Bool.or_eq_true] at h
        obtain ⟨⟨⟨⟨h1, h2⟩, h3⟩, h4⟩, h5⟩ := h
        -- well-formed factors
        have hlw : ∀ p ∈ l, (∀ f, p.2 = .multi f → f.WF) ∧ (∀ f, p.2 = .det f → f.WF ∧ f.leftVars = [p.1]) := by
          intro p hp
          obtain ⟨r, hr, e⟩ := mapM_mem hl p hp
          obtain ⟨hdr, hsh⟩ := hd r hr
          cases r with
          | num d vals v =>
            simp only [SRow.make] at e
            cases hm : Factor.make (IS vt V) d vals (some [v]) none with
            | error e' => rw [hm] at e; cases e
            | ok f =>
              rw [hm] at e
              injection e with e
              subst e
              refine ⟨fun f' hf' => ?_, fun f' hf' => by cases hf'⟩
              injection hf' with hf'
              subst hf'
              exact (wf_of_make vt hdr hm).1
          | fn d vals v =>
            simp only [SRow.shapeOk, decide_eq_true_eq] at hsh
            obtain ⟨f, m1, m2, m3, m4, m5, _⟩ := DetFactor.make_ok (labelStoreOf_lawful (V := V) (S := Char) vt) (d := d) (values := vals)
              (left := some [v]) (right := none) (r := (Dict.keys d).filter fun u => u ∉ [v]) (x := v) hdr rfl
              (fun w hw => (List.mem_filter.1 hw).1) hsh.1 hsh.2
            simp only [SRow.make] at e
            rw [show DetFactor.make (LS vt V) d ⟨[vals.length], vals⟩ (some [v]) none = _ from m1] at e
            injection e with e
            subst e
            refine ⟨fun f' hf' => (by cases hf'), fun f' hf' => ?_⟩
            injection hf' with hf'
            subst hf'
            exact ⟨m2, m5⟩
        have hfw : ∀ p ∈ fs, p.2.WF ∧ ∃ p' ∈ l, p'.1 = p.1 ∧ asMulti vt p'.2 = .ok p.2 := by
          intro p hp
          obtain ⟨p', hp', e⟩ := mapM_mem hfs p hp
          cases ha : asMulti vt p'.2 with
          | error e' => rw [ha] at e; cases e
          | ok r =>
            rw [ha] at e
            injection e with e
            subst e
            refine ⟨?_, p', hp', rfl, ha⟩
            obtain ⟨w1, w2⟩ := hlw p' hp'
            cases hp2 : p'.2 with
            | multi f =>
              rw [hp2] at ha
              injection ha with ha
              subst ha
              exact w1 _ hp2
            | det f =>
              rw [hp2] at ha
              obtain ⟨wf, wl⟩ := w2 f hp2
              obtain ⟨r', c1, c2, _⟩ := C16_to_multinomial (α := Fl ℚ) vt wf wl
              rw [asMulti, c1] at ha
              injection ha with ha
              subst ha
              exact c2
        obtain ⟨_, hsets⟩ := DagModel.ofDict_inv hb
        have hget : ∀ v f, Dict.get? b.factors v = some (some f) → (v, f) ∈ fs := by
          intro v f hf
          rcases hsets.factors hf with h | h
          · exact h
          · simp only [DagModel.get?_init] at h
            split at h <;> cases h
        have hw : DagModel.FactorsWF (IS vt V) b := by
          intro v f g' hf hv
          injection hv with hv
          subst hv
          exact (hfw _ (hget v f hf)).1
        obtain ⟨r1, r2, r3, r4⟩ := allOk_spec hI hw h1
        have hgn : g.nodes = (BN.ofModel (IS vt V) b : BN V Char ℚ).nodes := by rw [← r1.nodes, h2]
        have hk : (Dict.keys l).Nodup := by rw [h3, hgn]; exact r2.nodes
        have htab : ∀ p ∈ l, ∃ r, (p.1, r) ∈ fs ∧ asMulti vt p.2 = .ok r ∧ IsTable (BN.ofModel (IS vt V) b : BN V Char ℚ) p.1 r := by
          intro p hp
          have hpn : p.1 ∈ (BN.ofModel (IS vt V) b : BN V Char ℚ).nodes := by
            rw [← hgn, ← h3]; exact Dict.mem_keys_of_mem hp
          obtain ⟨f, g', e1, e2, e3⟩ := r1.table p.1 hpn
          injection e2 with e2
          subst e2
          have hm := hget _ _ e1
          obtain ⟨_, p', hp', q1, q2⟩ := hfw _ hm
          have : p' = p := by
            have a1 := Dict.get?_of_mem hk (k := p'.1) (v := p'.2) hp'
            have a2 := Dict.get?_of_mem hk (k := p.1) (v := p.2) hp
            have q1 : p'.1 = p.1 := q1
            rw [q1, a2] at a1
            injection a1 with a1
            exact Prod.ext q1 a1.symm
          subst this
          exact ⟨f, hm, q2, e3⟩
        refine ⟨l, b, by rw [bnetOf, hfs]; exact hb, ⟨hl, r2, r3, r4, h2 ▸ r1.wf, hgn, by rw [← h2]; exact r1.parents, by rw [h3, hgn], ?_, ?_⟩⟩
        · intro p hp
          obtain ⟨r, _, t1, t2⟩ := htab p hp
          cases hp2 : p.2 with
          | multi f => rw [hp2] at t1; injection t1 with t1; subst t1; exact t2
          | det f =>
            rw [hp2] at t1
            obtain ⟨wf, wl⟩ := (hlw p hp).2 f hp2
            exact DetTable.of_toMultinomial wf wl t1 t2
        · intro v hv hvn
          have hvl : v ∈ Dict.keys l := by rw [h3, hgn]; exact hvn
          obtain ⟨f, hf⟩ := Dict.mem_keys.1 hvl
          obtain ⟨r, t0, t1, t2⟩ := htab _ hf
          refine IsTable.zero_one r2 hvn t2 ?_
          rcases h5 _ t0 with h | h
          · exact absurd hv (by simpa using h)
          · exact h

/-- The model built from such rows. -/
theorem ScmData.model {vt : VType} {g : DiGraph V} {rows : List (SRow V)} {endo : List V} {l : List (V × AnyFactor (IS vt V) (LS vt V))}
    {B : BN V Char ℚ} (h : ScmData vt g rows endo l B) {e : Option (List V)} (he : SCM.endoOr g e = endo) (cast : Bool) :
    ∃ m : SCM (IS vt V) (LS vt V), SCM.ofList g (l.map fun p => some p.2) e cast true = .ok m ∧ m.Rep B ∧ m.endogenous = endo ∧
      m.cast = cast ∧ m.base.graph = g := by
  obtain ⟨_, e2, e3⟩ := SCM.rep_built h.valid h.graph h.nodes h.parents (by rw [h.keys]) h.tables e cast true
    (by rw [he]; exact h.equations) rfl
  exact ⟨_, e2, e3, he, rfl, rfl⟩

/-! ### The example: `U → X`, `X, W → Y`, `Y → Z`, `U → Z` with exogenous `U`, `W` -/

abbrev sU : PyStr := ['U']
abbrev sW : PyStr := ['W']
abbrev sX : PyStr := ['X']
abbrev sY : PyStr := ['Y']
abbrev sZ : PyStr := ['Z']

def gScm : DiGraph PyStr := ⟨[sU, sW, sX, sY, sZ], [(sU, sX), (sX, sY), (sW, sY), (sY, sZ), (sU, sZ)]⟩

def rowsScm : List (SRow PyStr) :=
  [.num [(sU, ['0', '1', '2'])] [q (1/2), q (1/3), q (1/6)] sU,
   .num [(sW, ['0', '1'])] [q (1/4), q (3/4)] sW,
   .fn [(sX, ['0', '1']), (sU, ['0', '1', '2'])] ['0', '1', '1'] sX,
   .fn [(sY, ['0', '1']), (sX, ['0', '1']), (sW, ['0', '1'])] ['0', '1', '1', '0'] sY,
   .num [(sZ, ['0', '1']), (sY, ['0', '1']), (sU, ['0', '1', '2'])] [q 1, q 0, q 1, q 0, q 1, q 0, q 0, q 1, q 0, q 1, q 0, q 1] sZ]

theorem scmCheck_ex (vt : VType) : scmCheck vt gScm rowsScm [sX, sY, sZ] = true := by
  cases vt <;> decide +kernel

/-- The network of the example. -/
def exBnet (vt : VType) : Py (DagModel (Factor (IS vt PyStr)) PyStr Char) := do
  let l ← facsOf vt rowsScm
  bnetOf vt gScm l

theorem ex_scm_net (vt : VType) : ∃ l b, exBnet vt = .ok b ∧ ScmData vt gScm rowsScm [sX, sY, sZ] l (BN.ofModel (IS vt PyStr) b) := by
  obtain ⟨l, b, h1, h2⟩ := scmCheck_spec (by decide) (scmCheck_ex vt)
  exact ⟨l, b, by rw [exBnet, h2.facs]; exact h1, h2⟩

theorem ex_scm (vt : VType) : ∃ l B, ScmData vt gScm rowsScm [sX, sY, sZ] l B := by
  obtain ⟨l, b, _, h⟩ := ex_scm_net vt
  exact ⟨l, _, h⟩

end Props
end Verif
