import Verif.Props.Graph
import Verif.Props.Likelihood

/-!
# Separation: Markov blankets with hidden variables, and observations that say nothing (C72, C73)
-/

set_option linter.unusedSectionVars false
set_option linter.unusedSimpArgs false

namespace Verif.Props
open Verif Relation

section
variable {V S K : Type} [DecidableEq V] [DecidableEq S]

/-! ### C72 -/

/-- **C72** `markov_blanket(dag, v, hidden)`: given the observed variables in the result, the observed variables outside it
are independent of `v`, all of them together.  The observed variables are the nodes outside `hidden` other than `v`. -/
theorem C72_hidden_blanket [CommSemiring K] {B : BN V S K} (hB : B.Valid) (hn : B.Normalised) {g : DiGraph V} (hg : g.WF)
    (hgn : g.nodes = B.nodes) (hge : ∀ v ∈ B.nodes, ∀ p, p ∈ B.parents v ↔ (p, v) ∈ g.edges) {v : V} (hv : v ∈ B.nodes)
    {hidden O I : List V} (hO : ∀ x, x ∈ O ↔ (x ∈ B.nodes ∧ x ∉ hidden ∧ x ≠ v) ∧ x ∉ g.markovBlanketHidden v hidden)
    (hI : ∀ x, x ∈ I ↔ (x ∈ B.nodes ∧ x ∉ hidden ∧ x ≠ v) ∧ x ∈ g.markovBlanketHidden v hidden)
    {a : V → S} (ha : B.InStates a) :
    B.marg ([v] ++ (O ++ I)) a * B.marg I a = B.marg ([v] ++ I) a * B.marg (O ++ I) a := by
  classical
  have hac : g.Acyclic := by
    intro u hu
    refine hB.acyclic u (Relation.TransGen.mono (fun x y hxy => ?_) _ _ hu)
    have hb : y ∈ B.nodes := hgn ▸ (hg.ends _ hxy).2
    exact ⟨hb, (hge y hb x).2 hxy⟩
  refine dsep_margs hB hn hg hgn hge (by simpa using hv) (fun x hx => ((hO x).1 hx).1.1) (fun x hx => ((hI x).1 hx).1.1) ?_ ha
  refine dSeparated_together hg hac (hgn ▸ hv) (fun h => ((hO v).1 h).1.2.2 rfl) fun y hy W hW => ?_
  obtain ⟨⟨y1, y2, y3⟩, y4⟩ := (hO y).1 hy
  set E := g.nodes.filter fun x => x ∉ hidden ∧ x ≠ v with hE
  have hd : y ∈ g.dsepNodes [v] E := by
    by_contra hc
    exact y4 (List.mem_filter.2 ⟨hgn ▸ y1, decide_eq_true ⟨hc, y3⟩⟩)
  have := (List.mem_filter.1 hd).2
  rw [dSeparated_congr hg hac (by simpa using hgn ▸ hv)] at this
  · exact this
  · intro x
    rw [hW, List.mem_filter, hE, List.mem_filter, hgn, hO, hI]
    simp only [decide_eq_true_eq]
    tauto

/-- **C72** when the hidden variables are not in the graph, the result is the usual Markov blanket. -/
theorem C72_nothing_hidden {g : DiGraph V} (hg : g.WF) (ha : g.Acyclic) {v : V} (hv : v ∈ g.nodes) {hidden : List V}
    (hh : ∀ x ∈ hidden, x ∉ g.nodes) (w : V) : w ∈ g.markovBlanketHidden v hidden ↔ InBlanket g v w := by
  classical
  have hne : ∀ {x y}, (x, y) ∈ g.edges → x ≠ y := by
    rintro x y h rfl
    exact ha x (.single h)
  set Z := (g.nodes.filter fun x => x ∉ hidden ∧ x ≠ v).filter (· ≠ w) with hZ
  have mZ : ∀ {x}, x ∈ g.nodes → (x ∉ Z ↔ x = v ∨ x = w) := by
    intro x hx
    have : x ∉ hidden := fun h => hh x h hx
    rw [hZ, List.mem_filter, List.mem_filter]
    simp only [hx, this, decide_eq_true_eq]
    tauto
  have need : ∀ {x}, x ∈ g.nodes → g.Needed ([v] ++ [w] ++ Z) x := by
    intro x hx
    refine ⟨x, ?_, .refl⟩
    by_cases h : x ∈ Z
    · exact List.mem_append_right _ h
    · rcases (mZ hx).1 h with rfl | rfl <;> simp
  have hsep := dSeparated_iff hg ha (T := [v]) (Y := [w]) (Z := Z) (by simpa using hv)
  have key : w ∈ g.markovBlanketHidden v hidden ↔ w ∈ g.nodes ∧ g.dSeparated [v] [w] Z ≠ true ∧ w ≠ v := by
    have h1 : w ∈ g.dsepNodes [v] (g.nodes.filter fun x => x ∉ hidden ∧ x ≠ v) ↔ w ∈ g.nodes ∧ g.dSeparated [v] [w] Z = true := List.mem_filter
    rw [DiGraph.markovBlanketHidden, DiGraph.dconNodes, List.mem_filter, decide_eq_true_eq, h1]
    tauto
  rw [key]
  constructor
  · rintro ⟨h1, h2, h3⟩
    rw [ne_eq, hsep] at h2
    push Not at h2
    obtain ⟨t, ht, y, hy, hr⟩ := h2
    obtain rfl : t = v := by simpa using ht
    obtain rfl : y = w := by simpa using hy
    have inv : ∀ x, ReflTransGen (fun u w => (g.Edge u w ∧ u ∉ Z ∧ g.Needed ([t] ++ [y] ++ Z) w) ∨
        (g.Edge w u ∧ w ∉ Z ∧ g.Needed ([t] ++ [y] ++ Z) u)) t x → InBlanket g t y ∨ x = t ∨ (t, x) ∈ g.edges := by
      intro x hx
      induction hx with
      | refl => exact .inr (.inl rfl)
      | @tail b c _ hbc ih =>
        rcases ih with h | ih
        · exact .inl h
        rcases hbc with ⟨e, f, _⟩ | ⟨e, f, _⟩
        · rcases (mZ (hg.ends _ e).1).1 f with rfl | rfl
          · exact .inr (.inr e)
          · rcases ih with rfl | ih
            · exact absurd rfl h3
            · exact .inl (.inr (.inl ih))
        · rcases (mZ (hg.ends _ e).1).1 f with rfl | rfl
          · exact .inr (.inl rfl)
          · rcases ih with rfl | ih
            · exact .inl (.inl e)
            · exact .inl (.inr (.inr ⟨h3, _, ih, e⟩))
    rcases inv _ hr with h | h | h
    · exact h
    · exact absurd h h3
    · exact .inr (.inl h)
  · intro hb
    have hwn : w ∈ g.nodes := by
      rcases hb with h | h | ⟨_, c, _, h⟩
      · exact (hg.ends _ h).1
      · exact (hg.ends _ h).2
      · exact (hg.ends _ h).1
    have hwv : w ≠ v := by
      rcases hb with h | h | ⟨h, _⟩
      · exact hne h
      · exact (hne h).symm
      · exact h
    refine ⟨hwn, fun hs => ?_, hwv⟩
    refine hsep.1 hs v (by simp) w (by simp) ?_
    have vZ : v ∉ Z := (mZ hv).2 (.inl rfl)
    have wZ : w ∉ Z := (mZ hwn).2 (.inr rfl)
    rcases hb with h | h | ⟨_, c, h, h'⟩
    · exact .single (.inr ⟨h, wZ, need hv⟩)
    · exact .single (.inl ⟨h, vZ, need hwn⟩)
    · exact .tail (.single (.inl ⟨h, vZ, need (hg.ends _ h).2⟩)) (.inr ⟨h', wZ, need (hg.ends _ h).2⟩)

/-- In the chain `A → B → C → D` with `B` hidden, `C` is in the blanket of `A`, besides `B`; with `A` hidden, that of `C`
consists of `B` and `D`. In `U → X`, `U → Y` with `U` hidden, `Y` is in the blanket of `X`. -/
example : gEx.markovBlanketHidden 'A' ['B'] = ['B', 'C'] ∧ gEx.markovBlanketHidden 'C' ['A'] = ['B', 'D'] ∧
    gEx.markovBlanketHidden 'C' ['Z'] = ['B', 'D'] ∧ gUXY.markovBlanketHidden 'X' ['U'] = ['U', 'Y'] ∧
    gUXY.markovBlanketHidden 'X' ['Y'] = ['U'] := by decide +kernel

/-! ### C73 -/

variable [Nonempty S] [Field K] [LinearOrder K] [IsStrictOrderedRing K]

/-- **C73** `get_minimal_obs_blanket` keeps from a record only the observations that are not separated from the target: this
does not change the distribution of the target given the record, whenever the record has positive probability. -/
theorem C73_minimal_observations {B : BN V S K} (hB : B.Valid) (hno : B.Normalised) (hnn : B.NonNeg) {g : DiGraph V} (hg : g.WF)
    (hgn : g.nodes = B.nodes) (hge : ∀ v ∈ B.nodes, ∀ p, p ∈ B.parents v ↔ (p, v) ∈ g.edges) {r : Rec V S} (hk : (Dict.keys r).Nodup)
    (hcn : ∀ v ∈ Dict.keys r, v ∈ B.nodes) {v : V} (hv : v ∈ B.nodes) (hvr : Rec.val r v = none) (hp : Possible B r)
    {b : V → S} (hb : b v ∈ B.states v) : B.post [v] (dsepFilter g v r) b = B.post [v] (recObs r) b := by
  obtain ⟨a, a1, a2, a3⟩ := hp
  rw [post_dsepFilter hB hno hnn hg hgn hge hk hcn rfl hv hvr a1 a2 a3 hb, BN.post, keys_recObs]
  have hval : ∀ w ∈ Rec.observed r, over (recObs r) b w = a w := by
    intro w hw
    rw [← keys_recObs] at hw
    obtain ⟨s, hs⟩ := Option.isSome_iff_exists.1 (Dict.get?_isSome.2 hw)
    rw [over_of_get? hs, a3 w s (get?_recObs hk hs)]
  have hvO : v ∉ Rec.observed r := by
    intro hc
    rw [← keys_recObs] at hc
    obtain ⟨s, hs⟩ := Option.isSome_iff_exists.1 (Dict.get?_isSome.2 hc)
    rw [get?_recObs hk hs] at hvr
    cases hvr
  congr 1
  · refine hB.marg_dep _ _ _ fun w hw => ?_
    rcases List.mem_cons.1 hw with rfl | hw
    · rw [upd_same, over_of_not_mem (by rw [keys_recObs]; exact hvO)]
    · rw [upd_ne _ _ (fun h : w = v => hvO (h ▸ hw)), hval w hw]
  · exact hB.marg_dep _ _ _ fun w hw => (hval w hw).symm

end

/-- In the example network, a record of `A`, `B` and `D`: for the target `C` only `B` and `D` are kept. -/
example : dsepFilter gEx 'C' [('A', some 'a'), ('B', some 'b'), ('C', none), ('D', some 'a')] = [('B', 'b'), ('D', 'a')] := by decide +kernel

theorem sepEx_out (x : Char) : x ∈ ['D'] ↔ (x ∈ ['A', 'B', 'C', 'D'] ∧ x ∉ ['B'] ∧ x ≠ 'A') ∧ x ∉ ['B', 'C'] := by
  simp only [List.mem_cons, List.not_mem_nil, or_false]
  by_cases h : x = 'D'
  · subst h; decide
  · simp only [h]; tauto

theorem sepEx_in (x : Char) : x ∈ ['C'] ↔ (x ∈ ['A', 'B', 'C', 'D'] ∧ x ∉ ['B'] ∧ x ≠ 'A') ∧ x ∈ ['B', 'C'] := by
  simp only [List.mem_cons, List.not_mem_nil, or_false]
  by_cases h : x = 'C'
  · subst h; decide
  · simp only [h]; tauto

/-- The hypotheses of C72 and C73 are met there. -/
example (vt : VType) : ∃ m, netOf vt gEx rowsEx = .ok m ∧
    (∀ a, (BN.ofModel (IQ vt) m : BN Char Char ℚ).InStates a →
      (BN.ofModel (IQ vt) m).marg ['A', 'D', 'C'] a * (BN.ofModel (IQ vt) m).marg ['C'] a =
        (BN.ofModel (IQ vt) m).marg ['A', 'C'] a * (BN.ofModel (IQ vt) m).marg ['D', 'C'] a) ∧
    ∀ r : Rec Char Char, Dict.keys r = ['A', 'B', 'C', 'D'] → Rec.val r 'C' = none → Possible (BN.ofModel (IQ vt) m) r →
      ∀ b, b 'C' ∈ (BN.ofModel (IQ vt) m).states 'C' →
        (BN.ofModel (IQ vt) m).post ['C'] (dsepFilter gEx 'C' r) b = (BN.ofModel (IQ vt) m).post ['C'] (recObs r) b := by
  have hb : gEx.markovBlanketHidden 'A' ['B'] = ['B', 'C'] := by decide +kernel
  obtain ⟨m, h1, h2, h3, h4, h5, h6⟩ := ex_net vt
  have hn : (BN.ofModel (IQ vt) m : BN Char Char ℚ).nodes = ['A', 'B', 'C', 'D'] := by rw [← h3.nodes, h2]; rfl
  have hp : ∀ v ∈ (BN.ofModel (IQ vt) m : BN Char Char ℚ).nodes, ∀ p, p ∈ (BN.ofModel (IQ vt) m : BN Char Char ℚ).parents v ↔ (p, v) ∈ gEx.edges :=
    fun v hv p => h2 ▸ h3.parents v hv p
  refine ⟨m, h1, fun a ha => ?_, fun r hk hv hpo b hb => ?_⟩
  · refine C72_hidden_blanket h4 h5 gEx_wf (h2 ▸ h3.nodes) hp (v := 'A') (by rw [hn]; decide) (hidden := ['B']) (O := ['D']) (I := ['C']) ?_ ?_ ha
    · intro x; rw [hb, hn]; exact sepEx_out x
    · intro x; rw [hb, hn]; exact sepEx_in x
  · exact C73_minimal_observations h4 h5 h6 gEx_wf (h2 ▸ h3.nodes) hp (by rw [hk]; decide) (by rw [hk, hn]; simp) (by rw [hn]; decide) hv hpo hb

end Verif.Props
