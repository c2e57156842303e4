import Verif.Learn.EMData
import Verif.Net.Gibbs
import Verif.Net.DSep

/-!
# The likelihood of the data during expectation maximisation: helper lemmas
-/

set_option linter.unusedSectionVars false
set_option linter.unusedSimpArgs false

namespace Verif

variable {V S K : Type} [DecidableEq V] [DecidableEq S]

theorem sum_ite_nodup [AddMonoid K] {Y : Type} [DecidableEq Y] {ks : List Y} (hk : ks.Nodup) (F : Y → K) {y : Y} (hy : y ∈ ks) :
    (ks.map fun k => if k = y then F k else 0).sum = F y := by
  induction ks with
  | nil => cases hy
  | cons k ks ih =>
    obtain ⟨h1, h2⟩ := List.nodup_cons.1 hk
    rw [List.map_cons, List.sum_cons]
    by_cases h : k = y
    · subst h
      have : (ks.map fun x => if x = k then F x else 0).sum = 0 := by
        refine List.sum_eq_zero fun x hx => ?_
        obtain ⟨z, hz, rfl⟩ := List.mem_map.1 hx
        exact if_neg fun (e : z = k) => h1 (e ▸ hz)
      rw [this, if_pos rfl, add_zero]
    · rw [if_neg h, zero_add, ih h2 ((List.mem_cons.1 hy).resolve_left fun e => h e.symm)]

/-- A weighted sum over distinct patterns is a sum over records. -/
theorem sum_weighted [Semiring K] {X Y : Type} [DecidableEq Y] (rows : List X) (ks : List Y) (P : X → Y → Bool) (hk : ks.Nodup) (own : X → Y)
    (hown : ∀ r ∈ rows, own r ∈ ks) (hP : ∀ r ∈ rows, ∀ k ∈ ks, P r k = true ↔ k = own r) (F : Y → K) :
    (ks.map fun k => F k * ((rows.countP fun r => P r k : ℕ) : K)).sum = (rows.map fun r => F (own r)).sum := by
  induction rows with
  | nil => simp
  | cons r rows ih =>
    have ih := ih (fun r hr => hown r (List.mem_cons_of_mem _ hr)) fun r hr => hP r (List.mem_cons_of_mem _ hr)
    have e : (ks.map fun k => F k * ((((r :: rows).countP fun r => P r k : ℕ)) : K)).sum =
        (ks.map fun k => F k * ((rows.countP fun r => P r k : ℕ) : K)).sum + (ks.map fun k => if k = own r then F k else 0).sum := by
      rw [← List.sum_map_add]
      congr 1
      refine List.map_congr_left fun k hk => ?_
      rw [List.countP_cons]
      by_cases h : k = own r
      · rw [if_pos h, (hP r List.mem_cons_self k hk).2 h]
        simp [mul_add]
      · have : P r k = false := by
          rw [Bool.eq_false_iff]
          exact fun hc => h ((hP r List.mem_cons_self k hk).1 hc)
        simp [this, h]
    rw [e, ih, List.map_cons, List.sum_cons, add_comm]
    congr 1
    exact sum_ite_nodup hk F (hown r List.mem_cons_self)

/-- When the same columns are observed in all records, the expected count of a hidden root is the sum of its posteriors. -/
theorem expCount_rows [Field K] {B : BN V S K} {g : DiGraph V} {fr : Frame V S} {T : List V} (hd : RootData B g fr T)
    (hu : ∀ r ∈ fr.rows, ∀ r' ∈ fr.rows, Rec.observed r = Rec.observed r') {v : V} (hv : v ∈ T) (b : V → S) :
    B.expCount v (weighted g fr v) b = (fr.rows.map fun r => B.post [v] (dsepFilter g v r) b).sum := by
  have hh : ∀ o ∈ obsBlanket g fr v, B.hidden v o = [v] := by
    intro o ho
    obtain ⟨r, hr, rfl⟩ := (Props.C60_patterns g fr v).1 o ho
    have hvk : v ∉ Dict.keys (dsepFilter g v r) := by
      intro hc
      obtain ⟨s, hs⟩ := Option.isSome_iff_exists.1 (Dict.get?_isSome.2 hc)
      have := ((mem_dsepFilter hd.wf.nodup (hd.wf.keys r hr)).1 (Dict.mem_of_get? hs)).2.2
      rw [hd.hidden v hv r hr] at this
      cases this
    rw [BN.hidden, hd.roots v hv]
    simp [hvk]
  rw [BN.expCount, weighted, List.map_map]
  have hown : ∀ r ∈ fr.rows, dsepFilter g v r ∈ obsBlanket g fr v ∧ ((dsepFilter g v r).all fun p => Rec.eqAt r p.1 p.2) = true := by
    intro r hr
    obtain ⟨d, h1, h2⟩ := List.any_eq_true.1 (Props.own_pattern hd.wf (g := g) (t := v) hr)
    have := Props.match_own hd.wf hu hr h1 h2
    rw [← this]
    exact ⟨h1, h2⟩
  rw [← sum_weighted fr.rows (obsBlanket g fr v) (fun r o => o.all fun p => Rec.eqAt r p.1 p.2) (Props.obsBlanket_nodup g fr v)
    (dsepFilter g v) (fun r hr => (hown r hr).1)
    (fun r hr k hk => ⟨fun h => Props.match_own hd.wf hu hr hk h, fun h => by rw [h]; exact (hown r hr).2⟩) fun o => B.post [v] o b]
  congr 1
  refine List.map_congr_left fun o ho => ?_
  show B.post (B.hidden v o) o b * _ = _
  rw [hh o ho]

/-- Dropping the observations that are separated from `v` does not change its posterior. -/
theorem post_dsepFilter [Field K] [LinearOrder K] [IsStrictOrderedRing K] {B : BN V S K} (hB : B.Valid) (hno : B.Normalised) (hnn : B.NonNeg) {g : DiGraph V} (hg : g.WF)
    (hgn : g.nodes = B.nodes) (hge : ∀ v ∈ B.nodes, ∀ p, p ∈ B.parents v ↔ (p, v) ∈ g.edges) {cols : List V} (hc : cols.Nodup)
    (hcn : ∀ v ∈ cols, v ∈ B.nodes) {r : Rec V S} (hk : Dict.keys r = cols) {v : V} (hv : v ∈ B.nodes) (hvr : Rec.val r v = none)
    {a : V → S} (ha : B.InStates a) (hj : 0 < B.joint a) (har : ∀ w s, Rec.val r w = some s → a w = s) {b : V → S} (hb : b v ∈ B.states v) :
    B.post [v] (dsepFilter g v r) b = B.marg (v :: Rec.observed r) (upd a v (b v)) / B.marg (Rec.observed r) a := by
  have hac : g.Acyclic := by
    intro u hu
    refine hB.acyclic u (Relation.TransGen.mono (fun x y hxy => ?_) _ _ hu)
    have hb : y ∈ B.nodes := hgn ▸ (hg.ends _ hxy).2
    exact ⟨hb, (hge y hb x).2 hxy⟩
  set O := Rec.observed r with hO
  set o := dsepFilter g v r with ho
  set a' := upd a v (b v) with ha'
  have hOm : ∀ w, w ∈ O ↔ w ∈ cols ∧ ∃ s, Rec.val r w = some s := by
    intro w
    rw [hO, observed_eq hc hk, List.mem_filter, Option.isSome_iff_exists]
  have hvO : v ∉ O := by
    intro h
    obtain ⟨s, hs⟩ := ((hOm v).1 h).2
    rw [hvr] at hs; cases hs
  have hom : ∀ w s, (w, s) ∈ o ↔ w ∈ cols ∧ w ∈ v :: g.dconNodes v O ∧ Rec.val r w = some s := fun w s => mem_dsepFilter hc hk
  have hok : ∀ w, w ∈ Dict.keys o ↔ w ∈ O ∧ w ∈ v :: g.dconNodes v O := by
    intro w
    rw [Dict.mem_keys]
    constructor
    · rintro ⟨s, hs⟩
      obtain ⟨h1, h2, h3⟩ := (hom w s).1 hs
      exact ⟨(hOm w).2 ⟨h1, s, h3⟩, h2⟩
    · rintro ⟨h1, h2⟩
      obtain ⟨h3, s, hs⟩ := (hOm w).1 h1
      exact ⟨s, (hom w s).2 ⟨h3, h2, hs⟩⟩
  have hvo : v ∉ Dict.keys o := fun h => hvO ((hok v).1 h).1
  have hin : B.InStates a' := by
    intro w hw
    by_cases h : w = v
    · subst h; rw [ha', upd_same]; exact hb
    · rw [ha', upd_ne _ _ h]; exact ha w hw
  -- the observed states
  have hover : ∀ w ∈ v :: Dict.keys o, over o b w = a' w := by
    intro w hw
    by_cases h : w = v
    · subst h; rw [over_of_not_mem hvo, ha', upd_same]
    · have hw' := (List.mem_cons.1 hw).resolve_left h
      obtain ⟨s, hs⟩ := Option.isSome_iff_exists.1 (Dict.get?_isSome.2 hw')
      rw [over_of_get? hs, ha', upd_ne _ _ h, har w s ((hom w s).1 (Dict.mem_of_get? hs)).2.2]
  set Y := O.filter (· ∉ Dict.keys o) with hY
  have hYm : ∀ w, w ∈ Y ↔ w ∈ O ∧ w ∉ Dict.keys o := fun w => by simp [hY]
  have hsep : g.dSeparated [v] Y (Dict.keys o) = true := by
    refine dSeparated_together hg hac (hgn ▸ hv) (fun h => hvO ((hYm v).1 h).1) fun y hy W hW => ?_
    obtain ⟨h1, h2⟩ := (hYm y).1 hy
    have hyv : y ≠ v := fun e => hvO (e ▸ h1)
    have hyn : y ∈ g.nodes := hgn ▸ hcn y ((hOm y).1 h1).1
    have h3 : y ∉ g.dconNodes v O := fun h => h2 ((hok y).2 ⟨h1, List.mem_cons_of_mem _ h⟩)
    have h4 : y ∈ g.dsepNodes [v] O := by
      by_contra h
      exact h3 (List.mem_filter.2 ⟨hyn, by simp [h, hyv]⟩)
    have h5 : g.dSeparated [v] [y] (O.filter (· ≠ y)) = true := (List.mem_filter.1 h4).2
    rw [dSeparated_congr hg hac (by simpa using hgn ▸ hv) (Z' := O.filter (· ≠ y)) fun x => ?_]
    · exact h5
    · have hx : x ∈ O.filter (· ≠ y) ↔ x ∈ O ∧ x ≠ y := by simp
      rw [hW, hx, hYm]
      refine and_congr ?_ Iff.rfl
      constructor
      · rintro (h | h)
        · exact h.1
        · exact ((hok x).1 h).1
      · intro h
        by_cases hk : x ∈ Dict.keys o
        · exact .inr hk
        · exact .inl ⟨h, hk⟩
  have hind := dsep_margs hB hno hg hgn hge (T := [v]) (Y := Y) (Z := Dict.keys o) (by simpa using hv)
    (fun y hy => hcn y ((hOm y).1 ((hYm y).1 hy).1).1) (fun z hz => hcn z ((hOm z).1 ((hok z).1 hz).1).1) hsep hin
  have hYO : ∀ w, w ∈ Y ++ Dict.keys o ↔ w ∈ O := by
    intro w
    rw [List.mem_append, hYm]
    constructor
    · rintro (h | h)
      · exact h.1
      · exact ((hok w).1 h).1
    · intro h
      by_cases hw : w ∈ Dict.keys o
      · exact .inr hw
      · exact .inl ⟨h, hw⟩
  rw [BN.marg_congr_set (vs := [v] ++ (Y ++ Dict.keys o)) (ws := v :: O) (fun w _ => by rw [List.mem_append, hYO]; simp),
    BN.marg_congr_set (vs := Y ++ Dict.keys o) (ws := O) (fun w _ => hYO w)] at hind
  have e1 : B.marg O a = B.marg O a' := hB.marg_dep _ _ _ fun w hw => by
    rw [ha', upd_ne _ _ fun e => hvO (by rw [← e]; exact hw)]
  have e2 : B.marg (Dict.keys o) a' = B.marg (Dict.keys o) a := hB.marg_dep _ _ _ fun w hw => by
    rw [ha', upd_ne _ _ fun e => hvo (by rw [← e]; exact hw)]
  have p1 : B.marg O a' ≠ 0 := e1 ▸ (BN.marg_pos hB hnn O ha hj).ne'
  have p2 : B.marg (Dict.keys o) a' ≠ 0 := e2 ▸ (BN.marg_pos hB hnn _ ha hj).ne'
  rw [BN.post, hB.marg_dep _ _ _ (fun w hw => hover w (by simpa using hw)),
    hB.marg_dep _ _ _ (fun w hw => hover w (List.mem_cons_of_mem _ hw)), e1, div_eq_div_iff p2 p1]
  exact hind.symm

end Verif
