import Verif.Model.Build
import Verif.Model.SCM
import Verif.Model.Represents
import Verif.Spec.Causal
import Verif.Props.Deterministic

/-!
# Building models from tables that fit: helper lemmas
-/

set_option linter.unusedSectionVars false
set_option linter.unusedSimpArgs false

namespace Verif

theorem Dict.set_map {κ ν : Type} [DecidableEq κ] (l : List κ) (h : κ → ν) {k : κ} (hk : k ∈ l) (y : ν) :
    Dict.set (l.map fun x => (x, h x)) k y = l.map fun x => (x, if x = k then y else h x) := by
  rw [Dict.set, if_pos (by simpa [Dict.keys, List.map_map, Function.comp_def] using hk), List.map_map]
  refine List.map_congr_left fun x _ => ?_
  by_cases hx : x = k <;> simp [hx]

theorem Dict.get?_map {κ ν : Type} [DecidableEq κ] (l : List κ) (h : κ → ν) (k : κ) :
    Dict.get? (l.map fun x => (x, h x)) k = if k ∈ l then some (h k) else none := by
  induction l with
  | nil => rfl
  | cons x l ih =>
    rw [List.map_cons, Dict.get?]
    by_cases hx : x = k
    · subst hx; simp
    · simp [hx, ih, Ne.symm hx]

namespace DagModel
variable {F V S : Type} [DecidableEq V] [DecidableEq S] [FactorLike F V S]

/-- The factor `f` is accepted for the node `v` of `g` when the states are those of `D`. -/
structure Fits (g : DiGraph V) (D : V → List S) (v : V) (f : F) : Prop where
  node : v ∈ g.nodes
  right : SameSet (g.pred v) (FactorLike.rightVars f)
  left : SameSet [v] (FactorLike.leftVars f)
  dom : ∀ p ∈ FactorLike.dom f, p.2 = D p.1
  mem : v ∈ Dict.keys (FactorLike.dom f)

/-- The model after the factors `fs` have been set. -/
def after (g : DiGraph V) (D : V → List S) (check : Bool) (fs : List (V × F)) : DagModel F V S :=
  ⟨g, g.nodes.map fun v => (v, Dict.get? fs v), g.nodes.map fun v => (v, if v ∈ Dict.keys fs then some (D v) else none), check⟩

theorem after_nil (g : DiGraph V) (D : V → List S) (check : Bool) :
    after (F := F) g D check [] = ⟨g, g.nodes.map fun x => (x, none), g.nodes.map fun x => (x, none), check⟩ := by
  simp [after, Dict.get?]

theorem setFactor_after {g : DiGraph V} {D : V → List S} {check : Bool} {fs : List (V × F)} {v : V} {f : F}
    (hf : Fits g D v f) (hv : v ∉ Dict.keys fs) :
    (after g D check fs).setFactor v (some f) = .ok (after g D check (fs ++ [(v, f)])) := by
  have hchk : (after g D check fs).checkFactor v f = .ok () := by
    refine checkFactor_ok.2 ⟨hf.node, hf.right, hf.left, fun p hp => ?_⟩
    show domFits (Dict.get? (g.nodes.map fun v => (v, if v ∈ Dict.keys fs then some (D v) else none)) p.1) p.2 = true
    rw [Dict.get?_map]
    by_cases h1 : p.1 ∈ g.nodes
    · by_cases h2 : p.1 ∈ Dict.keys fs
      · rw [if_pos h1, if_pos h2, hf.dom p hp]
        simp [domFits, SameSet]
      · rw [if_pos h1, if_neg h2]; rfl
    · rw [if_neg h1]; rfl
  obtain ⟨st, hst⟩ := Dict.mem_keys.1 hf.mem
  have hget : Dict.get? (FactorLike.dom f) v = some (D v) := by
    obtain ⟨s, hs⟩ := Option.isSome_iff_exists.1 (Dict.get?_isSome.2 hf.mem)
    have := hf.dom _ (Dict.mem_of_get? hs)
    rw [hs]; exact congrArg some this
  have hd : Dict.get? (after g D check fs).domains v = some none := by
    show Dict.get? (g.nodes.map fun v => (v, if v ∈ Dict.keys fs then some (D v) else none)) v = _
    rw [Dict.get?_map, if_pos hf.node, if_neg hv]
  have hfac : Dict.set (after g D check fs).factors v (some f) = (after g D check (fs ++ [(v, f)])).factors := by
    show Dict.set (g.nodes.map fun v => (v, Dict.get? fs v)) v (some f) = g.nodes.map fun w => (w, Dict.get? (fs ++ [(v, f)]) w)
    rw [Dict.set_map _ _ hf.node]
    refine List.map_congr_left fun x _ => ?_
    rw [Dict.get?_append]
    by_cases hx : x = v
    · subst hx; simp [Dict.get?_eq_none.2 hv, Dict.get?]
    · simp [hx, Ne.symm hx, Dict.get?]
  have hdom : Dict.set (after g D check fs).domains v (some (D v)) = (after g D check (fs ++ [(v, f)])).domains := by
    show Dict.set (g.nodes.map fun v => (v, if v ∈ Dict.keys fs then some (D v) else none)) v (some (D v)) =
      g.nodes.map fun w => (w, if w ∈ Dict.keys (fs ++ [(v, f)]) then some (D w) else none)
    rw [Dict.set_map _ _ hf.node]
    refine List.map_congr_left fun x _ => ?_
    by_cases hx : x = v
    · subst hx; simp
    · simp [hx]
  rw [setFactor]
  have hd' : (match Dict.get? (after g D check fs).domains v with
    | some (some _) => .ok { after g D check fs with factors := Dict.set (after g D check fs).factors v (some f) }
    | _ => do
      let st ← Dict.get (FactorLike.dom f) v
      .ok { after g D check fs with
        factors := Dict.set (after g D check fs).factors v (some f)
        domains := Dict.set (after g D check fs).domains v (some st) } : Py (DagModel F V S)) =
      .ok (after g D check (fs ++ [(v, f)])) := by
    rw [hd]
    simp only [Dict.get, hget, py_ok_bind, hfac, hdom]
    rfl
  cases check with
  | false => exact hd'
  | true => simp only [after, if_true]; simp only [after] at hchk; rw [hchk]; exact hd'

theorem setAll {g : DiGraph V} {D : V → List S} {check : Bool} (l : List (V × F)) {fs : List (V × F)}
    (hf : ∀ p ∈ l, Fits g D p.1 p.2) (hn : (Dict.keys (fs ++ l)).Nodup) :
    l.foldlM (fun m p => m.setFactor p.1 (some p.2)) (after g D check fs) = .ok (after g D check (fs ++ l)) := by
  induction l generalizing fs with
  | nil => simp
  | cons p l ih =>
    have hv : p.1 ∉ Dict.keys fs := by
      rw [Dict.keys_append, Dict.keys_cons] at hn
      exact fun h => (List.disjoint_of_nodup_append hn) h List.mem_cons_self
    rw [List.foldlM_cons, setFactor_after (hf p List.mem_cons_self) hv]
    simp only [py_ok_bind]
    have := ih (fs := fs ++ [p]) (fun q hq => hf q (List.mem_cons_of_mem _ hq)) (by simpa using hn)
    rw [this]; simp

end DagModel

namespace SCM
variable {V S α : Type} [DecidableEq V] [DecidableEq S] [Inhabited α] [Zero α] [One α] [DecidableEq α]
  {I : StoreImpl V S α} {L : LabelStore V S}

/-- The factor stored when `f` is set for `v`. -/
def prep (endo : List V) (cast check : Bool) (v : V) (f : AnyFactor I L) : AnyFactor I L :=
  match prepare endo cast check v (some f) with
  | .ok (some f') => f'
  | _ => f

theorem setAll {g : DiGraph V} {D : V → List S} {endo : List V} {cast check : Bool} (l : List (V × AnyFactor I L))
    {fs : List (V × AnyFactor I L)}
    (hp : ∀ p ∈ l, prepare endo cast check p.1 (some p.2) = .ok (some (prep endo cast check p.1 p.2)))
    (hf : ∀ p ∈ l, DagModel.Fits g D p.1 (prep endo cast check p.1 p.2)) (hn : (Dict.keys (fs ++ l)).Nodup) :
    l.foldlM (fun (m : SCM I L) p => m.setFactor p.1 (some p.2)) ⟨DagModel.after g D check fs, endo, cast⟩ =
      .ok ⟨DagModel.after g D check (fs ++ l.map fun p => (p.1, prep endo cast check p.1 p.2)), endo, cast⟩ := by
  induction l generalizing fs with
  | nil => simp
  | cons p l ih =>
    have hv : p.1 ∉ Dict.keys fs := by
      rw [Dict.keys_append, Dict.keys_cons] at hn
      exact fun h => (List.disjoint_of_nodup_append hn) h List.mem_cons_self
    rw [List.foldlM_cons]
    have h1 : SCM.setFactor (⟨DagModel.after g D check fs, endo, cast⟩ : SCM I L) p.1 (some p.2) =
        .ok ⟨DagModel.after g D check (fs ++ [(p.1, prep endo cast check p.1 p.2)]), endo, cast⟩ := by
      rw [setFactor]
      show (prepare endo cast check p.1 (some p.2) >>= _) = _
      rw [hp p List.mem_cons_self]
      simp only [py_ok_bind]
      rw [DagModel.setFactor_after (hf p List.mem_cons_self) hv]
      rfl
    rw [h1]
    simp only [py_ok_bind]
    have := ih (fs := fs ++ [(p.1, prep endo cast check p.1 p.2)]) (fun q hq => hp q (List.mem_cons_of_mem _ hq))
      (fun q hq => hf q (List.mem_cons_of_mem _ hq)) (by simpa using hn)
    rw [this]; simp

/-- Construction from a dictionary. -/
theorem ofDict_fits {g : DiGraph V} (hg : g.WF) (ha : g.Acyclic) {D : V → List S} (endo : Option (List V))
    {cast check : Bool} (l : List (V × AnyFactor I L))
    (hp : ∀ p ∈ l, prepare (endoOr g endo) cast check p.1 (some p.2) = .ok (some (prep (endoOr g endo) cast check p.1 p.2)))
    (hf : ∀ p ∈ l, DagModel.Fits g D p.1 (prep (endoOr g endo) cast check p.1 p.2)) (hn : (Dict.keys l).Nodup) :
    ofDict g (l.map fun p => (p.1, some p.2)) endo cast check =
      .ok ⟨DagModel.after g D check (l.map fun p => (p.1, prep (endoOr g endo) cast check p.1 p.2)), endoOr g endo, cast⟩ := by
  rw [ofDict, init, DagModel.init_ok hg ha, ← DagModel.after_nil g D check, py_ok_bind]
  show List.foldlM _ _ _ = _
  rw [List.foldlM_map]
  exact setAll (fs := []) l hp hf hn

theorem leftOf_fits {F : Type} [FactorLike F V S] {v : V} {f : F} (h : FactorLike.leftVars f = [v]) : DagModel.leftOf f = .ok v := by
  rw [DagModel.leftOf, h]; rfl

/-- Construction from a list. -/
theorem ofList_fits {g : DiGraph V} (hg : g.WF) (ha : g.Acyclic) {D : V → List S} (endo : Option (List V))
    {cast check : Bool} (l : List (V × AnyFactor I L)) (hl : ∀ p ∈ l, p.2.leftVars = [p.1])
    (hp : ∀ p ∈ l, prepare (endoOr g endo) cast check p.1 (some p.2) = .ok (some (prep (endoOr g endo) cast check p.1 p.2)))
    (hf : ∀ p ∈ l, DagModel.Fits g D p.1 (prep (endoOr g endo) cast check p.1 p.2)) (hn : (Dict.keys l).Nodup) :
    ofList g (l.map fun p => some p.2) endo cast check =
      .ok ⟨DagModel.after g D check (l.map fun p => (p.1, prep (endoOr g endo) cast check p.1 p.2)), endoOr g endo, cast⟩ := by
  rw [ofList, init, DagModel.init_ok hg ha, ← DagModel.after_nil g D check, py_ok_bind]
  show List.foldlM _ _ _ = _
  rw [List.foldlM_map]
  refine Eq.trans ?_ (setAll (fs := []) l hp hf hn)
  have : ∀ (l : List (V × AnyFactor I L)) (m : SCM I L), (∀ p ∈ l, p.2.leftVars = [p.1]) →
      l.foldlM (fun m p => setOne m (some p.2)) m = l.foldlM (fun m p => m.setFactor p.1 (some p.2)) m := by
    intro l
    induction l with
    | nil => intro _ _; rfl
    | cons p l ih =>
      intro m h
      rw [List.foldlM_cons, List.foldlM_cons]
      have h1 : setOne m (some p.2) = m.setFactor p.1 (some p.2) := by
        rw [setOne, leftOf_fits (h p List.mem_cons_self)]; rfl
      rw [h1]
      cases m.setFactor p.1 (some p.2) with
      | error e => rfl
      | ok m1 => exact ih m1 fun q hq => h q (List.mem_cons_of_mem _ hq)
  exact this l _ hl

end SCM
end Verif
