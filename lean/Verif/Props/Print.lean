import Verif.Factor.PrintLemmas
import Verif.Props.ExNet
import Verif.Props.ExScm

/-!
# What is printed about factors and models (C115)

`Printable v`: the name is not empty and has none of the characters of the notation.  What a text says is specified by lists of
names (`leftVars`, `rightVars`), names with numbers of states (`shownCards`, `shownDomains`), values (`shownValues`: the first
four, and the last one when there are more) and nodes with their parents (`shownGraph`).  Two objects have the same text exactly
when these agree.
-/

set_option linter.unusedSectionVars false
set_option linter.unusedSimpArgs false

namespace Verif
namespace Props

variable {S : Type} [DecidableEq S] {α : Type}

/-- **C115** the name of a factor says which variables are on the left and which on the right. -/
theorem C115_name {l r l' r' : List Str} (hl : ∀ v ∈ l, Printable v) (hr : ∀ v ∈ r, Printable v) (hl' : ∀ v ∈ l', Printable v) (hr' : ∀ v ∈ r', Printable v) :
    probName l r = probName l' r' ↔ l = l' ∧ r = r' := by
  refine ⟨fun e => ?_, fun h => by rw [h.1, h.2]⟩
  obtain ⟨h1, h2, _⟩ := probName_cut hl hr hl' hr' (x := []) (y := []) (by simpa using e)
  exact ⟨h1, h2⟩

/-- **C115** the same for the name of an equation. -/
theorem C115_equation_name {l r l' r' : List Str} (h1 : l.length = 1) (h1' : l'.length = 1) (hl : ∀ v ∈ l, Printable v) (hr : ∀ v ∈ r, Printable v)
    (hl' : ∀ v ∈ l', Printable v) (hr' : ∀ v ∈ r', Printable v) : detName l r = detName l' r' ↔ l = l' ∧ r = r' := by
  refine ⟨fun e => ?_, fun h => by rw [h.1, h.2]⟩
  obtain ⟨h2, h3, _⟩ := detName_cut h1 h1' hl hr hl' hr' (x := []) (y := []) (by simpa using e)
  exact ⟨h2, h3⟩

/-- **C115** a table and an equation have different names. -/
theorem C115_kinds (l r l' r' : List Str) : probName l r ≠ detName l' r' := by
  intro h
  rw [probName, detName] at h
  simp at h

/-- **C115** two tables have the same text exactly when they have the same variables on each side, the same variables with the same
numbers of states, and the same shown values. -/
theorem C115_table {I J : StoreImpl Str S α} {sh : α → Str} (hs : Function.Injective sh) {f : Factor I} {g : Factor J} {vf vg : List α}
    (hf : f.valuesList = .ok vf) (hg : g.valuesList = .ok vg) (hnf : ∀ v ∈ f.vars ++ f.rightVars, Printable v) (hng : ∀ v ∈ g.vars ++ g.rightVars, Printable v)
    (hvf : ShowOk sh vf) (hvg : ShowOk sh vg) :
    f.repr sh = g.repr sh ↔ f.leftVars = g.leftVars ∧ f.rightVars = g.rightVars ∧ shownCards f.dom = shownCards g.dom ∧ shownValues vf = shownValues vg := by
  have hlf : ∀ v ∈ f.leftVars, Printable v := fun v hv => hnf v (List.mem_append_left _ (List.mem_filter.1 hv).1)
  have hlg : ∀ v ∈ g.leftVars, Printable v := fun v hv => hng v (List.mem_append_left _ (List.mem_filter.1 hv).1)
  simp only [Factor.repr, hf, hg, py_ok_bind]
  constructor
  · intro e
    have e := Except.ok.inj e
    simp only [List.append_assoc] at e
    obtain ⟨h1, h2, h3⟩ := probName_cut hlf (fun v hv => hnf v (List.mem_append_right _ hv)) hlg (fun v hv => hng v (List.mem_append_right _ hv)) (lit e)
    obtain ⟨h4, h5⟩ := cardStr_cut (fun v hv => hnf v (List.mem_append_left _ hv)) (fun v hv => hng v (List.mem_append_left _ hv)) (lit h3)
    obtain ⟨h6, _⟩ := valuesStr_cut hs hvf hvg (lit (p := ", values=[".toList) h5)
    exact ⟨h1, h2, h4, h6⟩
  · rintro ⟨h1, h2, h3, h4⟩
    rw [h1, h2, cardStr_congr h3, valuesStr_congr sh h4]

/-- **C115** two equations have the same text exactly when they have the same variables on each side, the same variables with the same
numbers of states, and the same shown values. -/
theorem C115_equation {L M : LabelStore Str S} {sh : S → Str} (hs : Function.Injective sh) {f : DetFactor L} {g : DetFactor M} {vf vg : List S}
    (hf : ((assignmentSpace (L.dom f.store)).mapM fun o => L.getValue f.store o) = .ok vf) (hg : ((assignmentSpace (M.dom g.store)).mapM fun o => M.getValue g.store o) = .ok vg)
    (h1 : f.leftVars.length = 1) (h1' : g.leftVars.length = 1) (hnf : ∀ v ∈ f.vars ++ f.rightVars, Printable v) (hng : ∀ v ∈ g.vars ++ g.rightVars, Printable v)
    (hvf : ShowOk sh vf) (hvg : ShowOk sh vg) :
    f.repr sh = g.repr sh ↔ f.leftVars = g.leftVars ∧ f.rightVars = g.rightVars ∧ shownCards f.dom = shownCards g.dom ∧ shownValues vf = shownValues vg := by
  have hlf : ∀ v ∈ f.leftVars, Printable v := fun v hv => hnf v (List.mem_append_left _ (List.mem_filter.1 hv).1)
  have hlg : ∀ v ∈ g.leftVars, Printable v := fun v hv => hng v (List.mem_append_left _ (List.mem_filter.1 hv).1)
  simp only [DetFactor.repr, hf, hg, py_ok_bind]
  constructor
  · intro e
    have e := Except.ok.inj e
    simp only [List.append_assoc] at e
    obtain ⟨h1, h2, h3⟩ := detName_cut h1 h1' hlf (fun v hv => hnf v (List.mem_append_right _ hv)) hlg (fun v hv => hng v (List.mem_append_right _ hv)) (lit e)
    obtain ⟨h4, h5⟩ := cardStr_cut (fun v hv => hnf v (List.mem_append_left _ hv)) (fun v hv => hng v (List.mem_append_left _ hv)) (lit h3)
    obtain ⟨h6, _⟩ := valuesStr_cut hs hvf hvg (lit (p := ", values=[".toList) h5)
    exact ⟨h1, h2, h4, h6⟩
  · rintro ⟨h1, h2, h3, h4⟩
    rw [h1, h2, cardStr_congr h3, valuesStr_congr sh h4]

section
variable {K : Type} [Field K] [LinearOrder K]

/-- **C115** two interval factors have the same text exactly when they have the same variables on each side, the same variables with
the same numbers of states, and the same shown lower and upper values. -/
theorem C115_interval {I J : StoreImpl Str S (Fl K)} (N : BoundNames Str S) {sh : Fl K → Str} (hs : Function.Injective sh) {f : IFactor I} {g : IFactor J}
    {lf hf : I.St} {lg hg : J.St} {a b c d : List (Fl K)}
    (f1 : I.restrict f.store [(N.bound, N.low)] = .ok lf) (f2 : I.valuesList lf = .ok a) (f3 : I.restrict f.store [(N.bound, N.up)] = .ok hf) (f4 : I.valuesList hf = .ok b)
    (g1 : J.restrict g.store [(N.bound, N.low)] = .ok lg) (g2 : J.valuesList lg = .ok c) (g3 : J.restrict g.store [(N.bound, N.up)] = .ok hg) (g4 : J.valuesList hg = .ok d)
    (hnf : ∀ v ∈ f.vars N ++ f.rightVars, v ≠ N.bound → Printable v) (hng : ∀ v ∈ g.vars N ++ g.rightVars, v ≠ N.bound → Printable v)
    (ha : ShowOk sh a) (hb : ShowOk sh b) (hc : ShowOk sh c) (hd : ShowOk sh d) :
    f.repr N sh = g.repr N sh ↔ f.leftVars N = g.leftVars N ∧ (f.rightVars.filter fun v => v ≠ N.bound) = (g.rightVars.filter fun v => v ≠ N.bound) ∧
      shownCards (f.dom N) = shownCards (g.dom N) ∧ shownValues a = shownValues c ∧ shownValues b = shownValues d := by
  have hl : ∀ {I : StoreImpl Str S (Fl K)} {f : IFactor I}, (∀ v ∈ f.vars N ++ f.rightVars, v ≠ N.bound → Printable v) →
      (∀ v ∈ f.leftVars N, Printable v) ∧ (∀ v ∈ f.rightVars.filter fun v => v ≠ N.bound, Printable v) ∧ ∀ v ∈ Dict.keys (f.dom N), Printable v := by
    intro I f h
    refine ⟨fun v hv => ?_, fun v hv => ?_, fun v hv => ?_⟩
    · have hv := (List.mem_filter.1 hv).1
      exact h v (List.mem_append_left _ hv) (by simpa using (List.mem_filter.1 hv).2)
    · exact h v (List.mem_append_right _ (List.mem_filter.1 hv).1) (by simpa using (List.mem_filter.1 hv).2)
    · obtain ⟨st, hst⟩ := Dict.mem_keys.1 hv
      obtain ⟨h1, h2⟩ := List.mem_filter.1 hst
      exact h v (List.mem_append_left _ (List.mem_filter.2 ⟨Dict.mem_keys_of_mem h1, h2⟩)) (by simpa using h2)
  obtain ⟨l1, l2, l3⟩ := hl hnf
  obtain ⟨l4, l5, l6⟩ := hl hng
  simp only [IFactor.repr, f1, f2, f3, f4, g1, g2, g3, g4, py_ok_bind]
  constructor
  · intro e
    have e := Except.ok.inj e
    simp only [List.append_assoc] at e
    obtain ⟨h1, h2, h3⟩ := probName_cut l1 l2 l4 l5 (lit e)
    obtain ⟨h4, h5⟩ := cardStr_cut l3 l6 (lit h3)
    obtain ⟨h6, h7⟩ := valuesStr_cut hs ha hc (lit (p := ", values_low=[".toList) h5)
    obtain ⟨h8, _⟩ := valuesStr_cut hs hb hd (lit (p := ", values_up=[".toList) h7)
    exact ⟨h1, h2, h4, h6, h8⟩
  · rintro ⟨h1, h2, h3, h4, h5⟩
    rw [h1, h2, cardStr_congr h3, valuesStr_congr sh h4, valuesStr_congr sh h5]

end

/-- **C115** two networks have the same text exactly when they have the same variables with the same numbers of states and the same
nodes with the same parents. -/
theorem C115_network {F G : Type} {m : DagModel F Str S} {n : DagModel G Str S} (hm : m.graph.WF) (hn : n.graph.WF)
    (pm : ∀ v ∈ m.graph.nodes ++ Dict.keys m.domains, Printable v) (pn : ∀ v ∈ n.graph.nodes ++ Dict.keys n.domains, Printable v) :
    m.repr = n.repr ↔ shownDomains m.domains = shownDomains n.domains ∧ shownGraph m.graph = shownGraph n.graph := by
  simp only [DagModel.repr]
  constructor
  · intro e
    rw [dagText_eq, dagText_eq] at e
    have e := Except.ok.inj e
    simp only [List.append_assoc] at e
    obtain ⟨h1, h2⟩ := cut (domText_no (by decide) fun v hv => pm v (List.mem_append_right _ hv)) (domText_no (by decide) fun v hv => pn v (List.mem_append_right _ hv)) (lit e)
    refine ⟨domText_inj (fun v hv => pm v (List.mem_append_right _ hv)) (fun v hv => pn v (List.mem_append_right _ hv)) h1, ?_⟩
    refine dagText_inj hm hn (fun v hv => pm v (List.mem_append_left _ hv)) (fun v hv => pn v (List.mem_append_left _ hv)) ?_
    rw [dagText_eq, dagText_eq]
    exact congrArg Except.ok (List.append_cancel_right (lit (p := ", dag=".toList) h2))
  · rintro ⟨h1, h2⟩
    rw [dagText_congr h2, domText_eq, domText_eq, h1]

/-- **C115** two causal models have the same text exactly when they have the same endogenous and the same exogenous variables with the
same numbers of states and the same nodes with the same parents. -/
theorem C115_causal {I J : StoreImpl Str S α} {L M : LabelStore Str S} {m : SCM I L} {n : SCM J M} (hm : m.base.graph.WF) (hn : n.base.graph.WF)
    (pm : ∀ v ∈ m.base.graph.nodes ++ Dict.keys m.base.domains, Printable v) (pn : ∀ v ∈ n.base.graph.nodes ++ Dict.keys n.base.domains, Printable v) :
    m.repr = n.repr ↔ shownDomains (m.base.domains.filter fun p => p.1 ∈ m.endogenous) = shownDomains (n.base.domains.filter fun p => p.1 ∈ n.endogenous) ∧
      shownDomains (m.base.domains.filter fun p => p.1 ∉ m.endogenous) = shownDomains (n.base.domains.filter fun p => p.1 ∉ n.endogenous) ∧
      shownGraph m.base.graph = shownGraph n.base.graph := by
  have hsub : ∀ {d : List (Str × Option (List S))} (q : Str × Option (List S) → Bool), (∀ v ∈ Dict.keys d, Printable v) → ∀ v ∈ Dict.keys (d.filter q), Printable v := by
    intro d q h v hv
    obtain ⟨st, hst⟩ := Dict.mem_keys.1 hv
    exact h v (Dict.mem_keys_of_mem (List.mem_filter.1 hst).1)
  have km : ∀ v ∈ Dict.keys m.base.domains, Printable v := fun v hv => pm v (List.mem_append_right _ hv)
  have kn : ∀ v ∈ Dict.keys n.base.domains, Printable v := fun v hv => pn v (List.mem_append_right _ hv)
  simp only [SCM.repr]
  constructor
  · intro e
    rw [dagText_eq, dagText_eq] at e
    have e := Except.ok.inj e
    simp only [List.append_assoc, List.cons_append] at e
    obtain ⟨h1, h2⟩ := cut (domText_no (by decide) (hsub _ km)) (domText_no (by decide) (hsub _ kn)) (lit e)
    obtain ⟨h3, h4⟩ := cut (domText_no (by decide) (hsub _ km)) (domText_no (by decide) (hsub _ kn)) h2
    refine ⟨domText_inj (hsub _ km) (hsub _ kn) h1, domText_inj (hsub _ km) (hsub _ kn) h3, ?_⟩
    refine dagText_inj hm hn (fun v hv => pm v (List.mem_append_left _ hv)) (fun v hv => pn v (List.mem_append_left _ hv)) ?_
    rw [dagText_eq, dagText_eq]
    exact congrArg Except.ok (List.append_cancel_right (lit (p := ", dag=".toList) h4))
  · rintro ⟨h1, h2, h3⟩
    rw [dagText_congr h3, domText_eq, domText_eq, domText_eq, domText_eq, h1, h2]

/-! ### Examples -/

/-- Fractions as texts -/
def shFl : Fl ℚ → Str
  | .fin x => intStr x.num ++ '/' :: Nat.toDigits 10 x.den
  | .nan => "nan".toList
  | .pinf => "inf".toList
  | .ninf => "-inf".toList

theorem intStr_chars {n : Int} {c : Char} (h : c ∈ intStr n) : c = '-' ∨ c.isDigit = true := by
  cases n with
  | ofNat n => exact .inr (Nat.isDigit_of_mem_toDigits (by decide) (by decide) h)
  | negSucc n =>
    rcases List.mem_cons.1 h with h | h
    · exact .inl h
    · exact .inr (Nat.isDigit_of_mem_toDigits (by decide) (by decide) h)

theorem slash_intStr (n : Int) : '/' ∉ intStr n := fun h => (intStr_chars h).elim (by decide) (by decide)

/-- The texts of numbers that are used in the examples meet the hypotheses. -/
theorem C115_show : Function.Injective shFl ∧ ∀ vals, ShowOk shFl vals := by
  constructor
  · have hs : ∀ x : ℚ, '/' ∈ shFl (.fin x) := fun x => by simp [shFl]
    have hn : '/' ∉ shFl .nan ∧ '/' ∉ shFl .pinf ∧ '/' ∉ shFl .ninf := by decide
    intro a b h
    cases a with
    | fin x =>
      cases b with
      | fin y =>
        obtain ⟨h1, h2⟩ := cut (slash_intStr _) (slash_intStr _) h
        rw [Rat.ext (intStr_inj h1) (toDigits_inj h2)]
      | nan => exact absurd (h ▸ hs x) hn.1
      | pinf => exact absurd (h ▸ hs x) hn.2.1
      | ninf => exact absurd (h ▸ hs x) hn.2.2
    | nan =>
      cases b with
      | fin y => exact absurd (h ▸ hs y) hn.1
      | nan => rfl
      | pinf => exact absurd h (by decide)
      | ninf => exact absurd h (by decide)
    | pinf =>
      cases b with
      | fin y => exact absurd (h ▸ hs y) hn.2.1
      | nan => exact absurd h (by decide)
      | pinf => rfl
      | ninf => exact absurd h (by decide)
    | ninf =>
      cases b with
      | fin y => exact absurd (h ▸ hs y) hn.2.2
      | nan => exact absurd h (by decide)
      | pinf => exact absurd h (by decide)
      | ninf => rfl
  · refine fun vals => ⟨fun a _ => ?_⟩
    cases a with
    | fin x =>
      have key : ∀ c : Char, c ≠ '-' → c ≠ '/' → c.isDigit = false → c ∉ shFl (.fin x) := fun c h1 h2 h3 hc => by
        rcases List.mem_append.1 hc with hc | hc
        · rcases intStr_chars hc with hc | hc
          · exact h1 hc
          · rw [h3] at hc; cases hc
        · rcases List.mem_cons.1 hc with hc | hc
          · exact h2 hc
          · rw [Nat.isDigit_of_mem_toDigits (by decide) (by decide) hc] at h3; cases h3
      exact ⟨by simp [shFl], key ',' (by decide) (by decide) (by decide), key ']' (by decide) (by decide) (by decide)⟩
    | nan => decide
    | pinf => decide
    | ninf => decide

/-- The text of a table of `X` given `Y` with these states of `X` -/
def prTable (vt : VType) (sx : List Char) (vals : List (Fl ℚ)) : Py Str := do
  let f ← Factor.make (storeOf vt : StoreImpl Str Char (Fl ℚ)) [(['X'], sx), (['Y'], ['a', 'b', 'c'])] vals none (some [['Y']])
  f.repr shFl

theorem C115_text (vt : VType) : prTable vt ['a', 'b'] [q 1, q (1/2), q (1/3), q 0, q (1/2), q (2/3)] =
    .ok "<MultinomialFactor P(X|Y), cardinality = (X:2,Y:3), values=[1/1,1/2,1/3,0/1,...,2/3]>".toList := by cases vt <;> decide +kernel

/-- Neither the states nor the values after the fourth, except the last, are shown: different factors may have the same text. -/
theorem C115_not_shown (vt : VType) : prTable vt ['a', 'b'] [q 1, q (1/2), q (1/3), q 0, q (1/2), q (2/3)] =
    prTable vt ['u', 'v'] [q 1, q (1/2), q (1/3), q 0, q 7, q (2/3)] := by cases vt <;> decide +kernel

/-- A network over `X`, `Y`, `Z` where the states of `Y` are not known -/
def prNet (arcs : List (Str × Str)) : DagModel Unit Str Char :=
  ⟨⟨[['X'], ['Y'], ['Z']], arcs⟩, [], [(['X'], some ['a', 'b']), (['Y'], none), (['Z'], some ['a'])], true⟩

theorem C115_network_text : (prNet [(['X'], ['Y']), (['Z'], ['Y'])]).repr = .ok "<BayesianNetwork (X:2,Y:,Z:1), dag=[X][Y|X:Z][Z]>".toList ∧
    (prNet [(['X'], ['Y'])]).repr ≠ (prNet [(['X'], ['Z'])]).repr := by decide +kernel

/-- The hypotheses on names are needed: a comma in a name hides that there are two variables. -/
theorem C115_comma : probName [['X', ',', 'Y']] [] = probName [['X'], ['Y']] [] ∧ ¬ Printable ['X', ',', 'Y'] ∧ Printable ['X'] ∧ Printable ['U', '_', '1'] := by decide

end Props
end Verif
