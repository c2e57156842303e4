import Verif.Factor.Frame

/-!
# Structural equations from tables of rows (C86)
-/

set_option linter.unusedSectionVars false
set_option linter.unusedSimpArgs false

namespace Verif.Props
open Verif

variable {S : Type} [DecidableEq S] [Inhabited S]

/-- The rows list a function of the variables of `pa` with values for `y`: the columns are those of `pa` and then `y`,
the cells are states, and every configuration of `pa` is the beginning of exactly one row. -/
structure ListsFunction (df : RowTable S) (doms pa : Dom Str S) (y : Str) (ys : List S) : Prop where
  columns : df.columns = Dict.keys pa ++ [y]
  domains : ∀ p ∈ pa ++ [(y, ys)], Dict.get? doms p.1 = some p.2
  dom : DomOk (pa ++ [(y, ys)])
  cells : ∀ row ∈ df.rows, List.Forall₂ (fun x d => x ∈ d) row (pa.map Prod.snd ++ [ys])
  once : ∀ c ∈ stateSpace pa, (df.rows.map List.dropLast).count c = 1

theorem ListsFunction.perm {df : RowTable S} {doms pa : Dom Str S} {y : Str} {ys : List S}
    (h : ListsFunction df doms pa y ys) : (df.rows.map List.dropLast).Perm (stateSpace pa) := by
  rw [List.perm_iff_count]
  intro c
  have hn : (stateSpace pa).Nodup := nodup_product fun l hl => by
    obtain ⟨p, hp, rfl⟩ := List.mem_map.1 hl
    exact h.dom.states p (by simp [hp])
  by_cases hc : c ∈ stateSpace pa
  · rw [h.once c hc, List.count_eq_one_of_mem hn hc]
  · rw [List.count_eq_zero_of_not_mem hc, List.count_eq_zero]
    intro hm
    obtain ⟨row, hr, rfl⟩ := List.mem_map.1 hm
    refine hc (mem_product.2 ?_)
    have h1 := h.cells row hr
    have := List.forall₂_take (pa.map Prod.snd).length h1
    have hl := h1.length_eq
    rw [List.length_append, List.length_singleton] at hl
    rw [List.dropLast_eq_take, hl]
    simpa using this

theorem right_of_last {V : Type} [DecidableEq V] {pa : Dom V S} {y : V} {ys : List S} (hyn : y ∉ Dict.keys pa) :
    (pa ++ [(y, ys)]).filter (fun p => p.1 ∈ Dict.keys pa) = pa ∧
    ((Dict.keys (pa ++ [(y, ys)])).filter fun v => v ∉ Dict.keys pa) = [y] := by
  constructor
  · rw [List.filter_append, List.filter_eq_self.2 fun p hp => by simpa using Dict.mem_keys_of_mem hp]
    simp [hyn]
  · have hk : Dict.keys (pa ++ [(y, ys)]) = Dict.keys pa ++ [y] := by simp [Dict.keys]
    rw [hk, List.filter_append, List.filter_eq_nil_iff.2 (by simp)]
    simp [hyn]

/-- What the constructor does with columns `pa` and then `y` -/
theorem fromFrame_eq {L : LabelStore Str S} {nan : S} {df : RowTable S} {doms pa : Dom Str S} {y : Str} {ys : List S}
    (left : Option Str) (hl : left = none ∨ left = some y) (hc : df.columns = Dict.keys pa ++ [y])
    (hdoms : ∀ p ∈ pa ++ [(y, ys)], Dict.get? doms p.1 = some p.2) (hd : DomOk (pa ++ [(y, ys)]))
    (hname : ∀ v ∈ Dict.keys pa, ¬ v <:+: y) :
    DetFactor.fromFrame L nan df doms left =
      DetFactor.make L (pa ++ [(y, ys)]) ⟨[df.rows.length],
        (RowTable.sortRows (pa.map Prod.snd ++ [ys]) (RowTable.cast nan (pa.map Prod.snd ++ [ys]) df.rows)).map
          fun r => r.getD pa.length nan⟩ none (some (Dict.keys pa)) := by
  have hk : Dict.keys (pa ++ [(y, ys)]) = Dict.keys pa ++ [y] := by simp [Dict.keys]
  have hy : RowTable.leftOr left df.columns = .ok y := by
    rcases hl with rfl | rfl
    · simp [RowTable.leftOr, hc]
    · cases y with
      | nil => simp [RowTable.leftOr, hc]
      | cons c s => rfl
  have hcat : df.categories doms = .ok (pa.map Prod.snd ++ [ys]) := by
    rw [RowTable.categories, hc, ← hk]
    have : ∀ d : Dom Str S, (∀ p ∈ d, Dict.get? doms p.1 = some p.2 ∧ p.2.Nodup) →
        ((Dict.keys d).mapM fun v => do
          let d ← Dict.get doms v
          if ¬ d.Nodup then throw .valueError
          return d) = (.ok (d.map Prod.snd) : Py _) := by
      intro d hd
      have e : d.map Prod.snd = (Dict.keys d).map fun v => (Dict.get? doms v).getD [] := by
        rw [Dict.keys, List.map_map]
        exact List.map_congr_left fun p hp => by simp [(hd p hp).1]
      rw [e]
      refine mapM_ok fun v hv => ?_
      obtain ⟨p, hp, rfl⟩ := List.mem_map.1 hv
      obtain ⟨h1, h2⟩ := hd p hp
      simp [Dict.get, h1, h2]
    rw [this _ fun p hp => ⟨hdoms p hp, hd.states p hp⟩]
    simp
  have hsub : subdomain doms df.columns = .ok (pa ++ [(y, ys)]) := by
    rw [hc, ← hk, subdomain]
    have : ∀ d : Dom Str S, (∀ p ∈ d, Dict.get? doms p.1 = some p.2) →
        ((Dict.keys d).mapM fun v => do
          let s ← Dict.get doms v
          return (v, s)) = (.ok d : Py _) := by
      intro d hd
      have e : d = (Dict.keys d).map fun v => (v, (Dict.get? doms v).getD []) := by
        rw [Dict.keys, List.map_map]
        conv_lhs => rw [← List.map_id d]
        exact List.map_congr_left fun p hp => by simp [hd p hp]
      conv_rhs => rw [e]
      refine mapM_ok fun v hv => ?_
      obtain ⟨p, hp, rfl⟩ := List.mem_map.1 hv
      simp [Dict.get, hd p hp]
    exact this _ hdoms
  have hnd : (Dict.keys pa ++ [y]).Nodup := hk ▸ hd.keys
  have hyn : y ∉ Dict.keys pa := fun h => (List.nodup_append.1 hnd).2.2 y h y (by simp) rfl
  have hidx : (Dict.keys pa ++ [y]).idxOf y = pa.length := by
    rw [List.idxOf_append_of_notMem hyn]
    simp [Dict.keys]
  have hright : ((Dict.keys (pa ++ [(y, ys)])).filter fun w => !Uai.isSub w y) = Dict.keys pa := by
    rw [hk, List.filter_append]
    have h1 : (Dict.keys pa).filter (fun w => !Uai.isSub w y) = Dict.keys pa := by
      rw [List.filter_eq_self]
      intro w hw
      simpa [Uai.isSub] using hname w hw
    rw [h1]
    simp [Uai.isSub, List.infix_refl]
  rw [DetFactor.fromFrame, hy, py_ok_bind, hcat, py_ok_bind, hsub, py_ok_bind, RowTable.column, hc,
    if_pos (by simp), py_ok_bind, hidx, hright]
  congr 1
  simp [RowTable.sortRows, RowTable.cast, List.length_insertionSort]

/-- **C86** (partly): from a frame that lists a function, the left variable in the last column, an equation is built
that computes every row. The name of no other column may be a part of the name of the left variable
(`C86_names`), and the left variable has to be the last column (`C86_left_first`). -/
theorem C86_rows_partial (vt : VType) (nan : S) {df : RowTable S} {doms pa : Dom Str S} {y : Str} {ys : List S}
    (left : Option Str) (hl : left = none ∨ left = some y) (h : ListsFunction df doms pa y ys)
    (hname : ∀ v ∈ Dict.keys pa, ¬ v <:+: y) :
    ∃ f, DetFactor.fromFrame (labelStoreOf vt) nan df doms left = .ok f ∧ f.WF ∧ f.dom = pa ++ [(y, ys)] ∧
      f.rightVars = Dict.keys pa ∧ f.leftVars = [y] ∧
      ∀ c s, c ++ [s] ∈ df.rows → ∀ obs, (Dict.keys pa).map (Dict.get? obs) = c.map some →
        f.getValue obs = .ok s ∧ ∀ s' ∈ ys, Dict.get? obs y = some s' → f.eval obs = .ok (decide (s = s')) := by
  have hL := labelStoreOf_lawful (V := Str) (S := S) vt
  set ds := pa.map Prod.snd ++ [ys] with hds
  have hcast : RowTable.cast nan ds df.rows = df.rows := RowTable.cast_eq h.cells
  set rows := RowTable.sortRows ds df.rows with hrows
  have hperm : rows.Perm df.rows := List.perm_insertionSort _ _
  have hpre : rows.map List.dropLast = stateSpace pa :=
    RowTable.sorted_prefixes (fun e he => by
      obtain ⟨p, hp, rfl⟩ := List.mem_map.1 he
      exact h.dom.states p (by simp [hp])) h.cells h.perm
  have hk : Dict.keys (pa ++ [(y, ys)]) = Dict.keys pa ++ [y] := by simp [Dict.keys]
  have hnd : (Dict.keys pa ++ [y]).Nodup := hk ▸ h.dom.keys
  have hyn : y ∉ Dict.keys pa := fun h => (List.nodup_append.1 hnd).2.2 y h y (by simp) rfl
  obtain ⟨hrd, hone⟩ := right_of_last (ys := ys) hyn
  have hlen : rows.length = (cards pa).prod := by
    have := congrArg List.length hpre
    rw [List.length_map] at this
    rw [this, stateSpace, length_product]
    simp [cards, Function.comp_def]
  obtain ⟨f, h1, h2, h3, h4, h5, h6⟩ := DetFactor.make_ok hL (left := none) (right := some (Dict.keys pa))
    (values := rows.map fun r => r.getD pa.length nan) (x := y) (r := Dict.keys pa) h.dom rfl
    (fun v hv => by rw [hk]; simp [hv])
    hone
    (by rw [hrd, List.length_map, hlen])
  rw [hrd] at h6
  rw [List.length_map, hperm.length_eq] at h1
  refine ⟨f, ?_, h2, h3, h4, h5, ?_⟩
  · rw [fromFrame_eq left hl h.columns h.domains h.dom hname, hcast]
    exact h1
  intro c s hcs obs hobs
  have hcells := h.cells _ hcs
  have hc2 : c ∈ stateSpace pa := by
    rw [← hpre]
    exact List.mem_map.2 ⟨_, hperm.mem_iff.2 hcs, by simp⟩
  have hclen : c.length = pa.length := by
    have := (mem_product.1 hc2).length_eq
    simpa using this
  have hget : ∀ p ∈ pa, ∃ x ∈ p.2, Dict.get? obs p.1 = some x := by
    have hf2 := mem_product.1 hc2
    rw [List.forall₂_map_right_iff] at hf2
    have : ∀ (d : Dom Str S) (c : List S), List.Forall₂ (fun x p => x ∈ p.2) c d →
        (Dict.keys d).map (Dict.get? obs) = c.map some → ∀ p ∈ d, ∃ x ∈ p.2, Dict.get? obs p.1 = some x := by
      intro d c hf
      induction hf with
      | nil => intro _ p hp; simp at hp
      | @cons x p c d hx hf ih =>
        intro he q hq
        simp only [Dict.keys, List.map_cons, List.cons.injEq] at he
        rcases List.mem_cons.1 hq with rfl | hq
        · exact ⟨x, hx, he.1⟩
        · exact ih he.2 q hq
    exact this pa c hf2 hobs
  have hright : f.rightDomain = pa := by rw [DetFactor.rightDomain, h3, h4, hrd]
  have hfull : FullObs f.rightDomain obs := by rw [hright]; exact hget
  have hval : f.fn (asg obs) = s := by
    have hin : InDom pa (asg obs) := hright ▸ hfull.inDom
    rw [h6 _ hin, List.getD_eq_getElem?_getD, List.getElem?_map]
    have hat := stateSpace_getElem? hin
    have hck : (Dict.keys pa).map (asg obs) = c := by
      have e : (Dict.keys pa).map (Dict.get? obs) = ((Dict.keys pa).map (asg obs)).map some := by
        rw [List.map_map]
        refine List.map_congr_left fun v hv => ?_
        obtain ⟨p, hp, rfl⟩ := List.mem_map.1 hv
        obtain ⟨x, _, hx⟩ := hget p hp
        simp [asg, over_of_get? hx, hx]
      rw [e] at hobs
      exact List.map_injective_iff.2 (Option.some_injective _) hobs
    rw [hck, ← hpre, List.getElem?_map] at hat
    obtain ⟨row, hr1, hr2⟩ := Option.map_eq_some_iff.1 hat
    rw [hr1]
    have hrow : row ∈ df.rows := hperm.mem_iff.1 (List.mem_of_getElem? hr1)
    have huniq : row = c ++ [s] := by
      have hcount := h.once c hc2
      have hinj : ∀ {l : List (List S)}, (l.map List.dropLast).count c = 1 → ∀ a ∈ l, ∀ b ∈ l, a.dropLast = c →
          b.dropLast = c → a = b := by
        intro l
        induction l with
        | nil => intro _ a ha; simp at ha
        | cons x l ih =>
          intro hc a ha b hb ea eb
          rw [List.map_cons, List.count_cons] at hc
          by_cases e : x.dropLast = c
          · simp only [e, beq_self_eq_true, if_true] at hc
            have h0 : (l.map List.dropLast).count c = 0 := by omega
            have hno : ∀ z ∈ l, z.dropLast ≠ c := fun z hz hz2 =>
              List.count_eq_zero.1 h0 (List.mem_map.2 ⟨z, hz, hz2⟩)
            rcases List.mem_cons.1 ha with rfl | ha
            · rcases List.mem_cons.1 hb with rfl | hb
              · rfl
              · exact absurd eb (hno _ hb)
            · exact absurd ea (hno _ ha)
          · have h1 : (l.map List.dropLast).count c = 1 := by simpa [e] using hc
            have ha' : a ∈ l := (List.mem_cons.1 ha).resolve_left fun he => e (he ▸ ea)
            have hb' : b ∈ l := (List.mem_cons.1 hb).resolve_left fun he => e (he ▸ eb)
            exact ih h1 a ha' b hb' ea eb
      exact hinj hcount _ hrow _ hcs hr2 (by simp)
    rw [huniq]
    simp [← hclen]
  refine ⟨by rw [DetFactor.getValue_full hL h2 hfull, hval], ?_⟩
  intro s' hs' hy
  have hfull2 : FullObs f.dom obs := by
    intro p hp
    rw [h3] at hp
    rcases List.mem_append.1 hp with hp | hp
    · exact hget p hp
    · obtain rfl := List.mem_singleton.1 hp
      exact ⟨s', hs', hy⟩
  rw [DetFactor.eval_ok hL h2 hfull2 h5, hval]
  simp [asg, over_of_get? hy]

/-- **C86** the number of rows has to be the number of configurations. -/
theorem C86_count (vt : VType) (nan : S) {df : RowTable S} {doms pa : Dom Str S} {y : Str} {ys : List S}
    (left : Option Str) (hl : left = none ∨ left = some y) (hc : df.columns = Dict.keys pa ++ [y])
    (hdoms : ∀ p ∈ pa ++ [(y, ys)], Dict.get? doms p.1 = some p.2) (hd : DomOk (pa ++ [(y, ys)]))
    (hname : ∀ v ∈ Dict.keys pa, ¬ v <:+: y) (hn : df.rows.length ≠ (stateSpace pa).length) :
    DetFactor.fromFrame (labelStoreOf vt) nan df doms left = .error .valueError := by
  have hk : Dict.keys (pa ++ [(y, ys)]) = Dict.keys pa ++ [y] := by simp [Dict.keys]
  have hnd : (Dict.keys pa ++ [y]).Nodup := hk ▸ hd.keys
  have hyn : y ∉ Dict.keys pa := fun h => (List.nodup_append.1 hnd).2.2 y h y (by simp) rfl
  obtain ⟨hrd, hone⟩ := right_of_last (ys := ys) hyn
  rw [fromFrame_eq left hl hc hdoms hd hname, DetFactor.make]
  simp only [Factor.setVariables, py_ok_bind, hone, hrd]
  have : ¬ (RowTable.sortRows (pa.map Prod.snd ++ [ys]) (RowTable.cast nan (pa.map Prod.snd ++ [ys]) df.rows)).length
      = (cards pa).prod := by
    simp only [RowTable.sortRows, RowTable.cast, List.length_insertionSort, List.length_map]
    rw [stateSpace, length_product] at hn
    simpa [cards, Function.comp_def] using hn
  simp [this]

theorem rows_left {X Y : Type} {R : X → Y → Prop} {l : List X} {r : List Y} (h : List.Forall₂ R l r) : ∀ x ∈ l, ∃ y ∈ r, R x y := by
  induction h with
  | nil => simp
  | cons h _ ih =>
    intro x hx
    rcases List.mem_cons.1 hx with rfl | hx
    · exact ⟨_, List.mem_cons_self, h⟩
    · obtain ⟨y, hy, hxy⟩ := ih x hx
      exact ⟨y, List.mem_cons_of_mem _ hy, hxy⟩

/-- **C86** what is refused: a left variable that is not a column, a column without domain, a domain that repeats a state, and a frame without
columns when no left variable is named. -/
theorem C86_refused (L : LabelStore Str S) (nan : S) (df : RowTable S) (doms : Dom Str S) :
    (∀ y, y ≠ [] → y ∉ df.columns → (∀ v ∈ df.columns, ∃ d, Dict.get? doms v = some d ∧ d.Nodup) →
      DetFactor.fromFrame L nan df doms (some y) = .error .keyError) ∧
    (∀ y, y ≠ [] → y ∉ df.columns → ∀ f, DetFactor.fromFrame L nan df doms (some y) ≠ .ok f) ∧
    (∀ v ∈ df.columns, v ∉ Dict.keys doms → ∀ left f, DetFactor.fromFrame L nan df doms left ≠ .ok f) ∧
    (∀ v ∈ df.columns, ∀ d, Dict.get? doms v = some d → ¬ d.Nodup → ∀ left f, DetFactor.fromFrame L nan df doms left ≠ .ok f) ∧
    (df.columns = [] → DetFactor.fromFrame L nan df doms none = .error .indexError) := by
  have hcat : ∀ left f, DetFactor.fromFrame L nan df doms left = .ok f → ∀ v ∈ df.columns, ∃ d, Dict.get? doms v = some d ∧ d.Nodup := by
    intro left f h v hv
    rw [DetFactor.fromFrame] at h
    rcases h1 : RowTable.leftOr left df.columns with e | y
    · rw [h1] at h; cases h
    rw [h1, py_ok_bind] at h
    rcases h2 : df.categories doms with e | ds
    · rw [h2] at h; cases h
    obtain ⟨d, _, h3⟩ := rows_left (mapM_eq_ok h2) v hv
    rcases h4 : Dict.get? doms v with _ | d'
    · rw [Dict.get, h4] at h3; cases h3
    · refine ⟨d', rfl, ?_⟩
      by_contra hn
      rw [Dict.get, h4] at h3
      simp [hn, bind, Except.bind, throw, throwThe, MonadExceptOf.throw] at h3
  have hkey : ∀ y, y ≠ [] → y ∉ df.columns → (∀ v ∈ df.columns, ∃ d, Dict.get? doms v = some d ∧ d.Nodup) →
      DetFactor.fromFrame L nan df doms (some y) = .error .keyError := by
    intro y hy hyc hd
    have h1 : RowTable.leftOr (some y) df.columns = .ok y := by
      cases y with
      | nil => exact absurd rfl hy
      | cons c s => rfl
    have h2 : df.categories doms = .ok (df.columns.map fun v => (Dict.get? doms v).getD []) := by
      refine mapM_ok fun v hv => ?_
      obtain ⟨d, h3, h4⟩ := hd v hv
      rw [Dict.get, h3]
      simp [h4, bind, Except.bind, pure, Except.pure]
    obtain ⟨r, h5, -⟩ := subdomain_ok (d := doms) (vs := df.columns) fun v hv => by
      obtain ⟨d, h3, -⟩ := hd v hv
      exact Dict.get?_isSome.1 (by rw [h3]; rfl)
    rw [DetFactor.fromFrame, h1, py_ok_bind, h2, py_ok_bind]
    simp only [h5, py_ok_bind, RowTable.column, if_neg hyc]
    rfl
  refine ⟨hkey, fun y hy hyc f h => ?_, fun v hv hn left f h => ?_, fun v hv d hd hn left f h => ?_, fun h => ?_⟩
  · have := hkey y hy hyc (hcat _ f h)
    rw [this] at h; cases h
  · obtain ⟨d, h1, -⟩ := hcat left f h v hv
    exact hn (Dict.get?_isSome.1 (by rw [h1]; rfl))
  · obtain ⟨d', h1, h2⟩ := hcat left f h v hv
    rw [hd] at h1
    exact hn (Option.some.inj h1 ▸ h2)
  · rw [DetFactor.fromFrame, h]; rfl

/-- **C86** the frame of the caller is left as it is when all its cells are states of the domains; any other cell is
replaced in it. -/
theorem C86_caller (nan : S) {ds rows : List (List S)} (hlen : ∀ r ∈ rows, r.length = ds.length) :
    (∀ r ∈ RowTable.cast nan ds rows, ∀ (i : Nat) d, ds[i]? = some d → ∀ x, r[i]? = some x → x ∈ d ∨ x = nan) ∧
    ((∀ r ∈ rows, List.Forall₂ (fun x d => x ∈ d) r ds) → RowTable.cast nan ds rows = rows) ∧
    ((∃ r ∈ rows, nan ∉ r ∧ ¬ List.Forall₂ (fun x d => x ∈ d) r ds) → RowTable.cast nan ds rows ≠ rows) := by
  refine ⟨?_, RowTable.cast_eq, ?_⟩
  · intro r hr i d hd x hx
    obtain ⟨r0, _, rfl⟩ := List.mem_map.1 hr
    rw [List.getElem?_zipWith] at hx
    rcases h0 : r0[i]? with _ | z
    · simp [h0] at hx
    · simp only [h0, hd, Option.some.injEq] at hx
      subst hx
      by_cases hz : z ∈ d <;> simp [RowTable.asCategory, hz]
  · rintro ⟨r, hr, hn, hf⟩ he
    have : ∀ l : List (List S), RowTable.cast nan ds l = l → ∀ r ∈ l, List.zipWith (RowTable.asCategory nan) r ds = r := by
      intro l hl r hr
      obtain ⟨i, hi, rfl⟩ := List.getElem_of_mem hr
      have := congrArg (·[i]?) hl
      simpa [RowTable.cast, hi] using this
    have h1 := this rows he r hr
    apply hf
    have h2 : ∀ (r : List S) (ds : List (List S)), r.length = ds.length → nan ∉ r →
        List.zipWith (RowTable.asCategory nan) r ds = r → List.Forall₂ (fun x d => x ∈ d) r ds := by
      intro r
      induction r with
      | nil => intro ds hl _ _; cases ds with
        | nil => exact .nil
        | cons d ds => simp at hl
      | cons x r ih =>
        intro ds hl hn he
        cases ds with
        | nil => simp at hl
        | cons d ds =>
          simp only [List.zipWith_cons_cons, List.cons.injEq] at he
          refine .cons ?_ (ih ds (by simpa using hl) (fun h => hn (List.mem_cons_of_mem _ h)) he.2)
          by_contra hx
          rw [RowTable.asCategory, if_neg hx] at he
          exact hn (by rw [he.1]; exact List.mem_cons_self)
    exact h2 r ds (hlen r hr) hn h1

/-! ### Examples -/

/-- Domains of the examples -/
def frDoms : Dom Str Char := [(['Y'], ['p', 'q']), (['X'], ['a', 'b']), (['Z'], ['c', 'd', 'e'])]

/-- `Y` as a function of `Z` and `X`, the rows in no particular order -/
def frTable : RowTable Char := ⟨[['Z'], ['X'], ['Y']],
  [['e', 'b', 'q'], ['c', 'a', 'p'], ['d', 'a', 'q'], ['c', 'b', 'q'], ['e', 'a', 'p'], ['d', 'b', 'p']]⟩

theorem frTable_lists : ListsFunction frTable frDoms [(['Z'], ['c', 'd', 'e']), (['X'], ['a', 'b'])] ['Y'] ['p', 'q'] := by
  refine ⟨rfl, by decide, ⟨by decide, by decide, by decide⟩, ?_, by decide⟩
  intro row hr
  rw [← mem_product]
  revert row
  decide

theorem C86_example (vt : VType) : ∃ f, DetFactor.fromFrame (labelStoreOf vt) '?' frTable frDoms none = .ok f ∧
    f.getValue [(['Z'], 'e'), (['X'], 'b')] = .ok 'q' ∧ f.getValue [(['Z'], 'd'), (['X'], 'b')] = .ok 'p' := by
  obtain ⟨f, h1, _, _, _, _, h⟩ := C86_rows_partial vt '?' none (.inl rfl) frTable_lists (by decide)
  exact ⟨f, h1, (h ['e', 'b'] 'q' (by decide) _ rfl).1, (h ['d', 'b'] 'p' (by decide) _ rfl).1⟩

/-- **C86** the example with a left variable that is not among the columns, though it has a domain -/
theorem C86_refused_example (vt : VType) :
    DetFactor.fromFrame (labelStoreOf vt) '?' frTable ((['W'], ['p']) :: frDoms) (some ['W']) = .error .keyError :=
  (C86_refused _ _ _ _).1 ['W'] (by decide) (by decide) (by decide)

/-- What an equation gives for an observation -/
def frRead (vt : VType) (df : RowTable Char) (left : Option Str) (obs : Obs Str Char) : Py Char := do
  let f ← DetFactor.fromFrame (labelStoreOf vt) '?' df frDoms left
  f.getValue obs

/-- **C86** fails when the left variable is not the last column: the rows are sorted by the values of the function.
Here the rows say that `a` goes to `q` and `b` to `p`; the equation that is built says the opposite. -/
theorem C86_left_first (vt : VType) :
    let df : RowTable Char := ⟨[['Y'], ['X']], [['q', 'a'], ['p', 'b']]⟩
    frRead vt df (some ['Y']) [(['X'], 'a')] = .ok 'p' ∧ frRead vt df (some ['Y']) [(['X'], 'b')] = .ok 'q' := by
  cases vt <;> decide +kernel

/-- **C86** a configuration that is repeated and one that is missing are not noticed: there is no row for `b`, which
gets the second value of `a`. -/
theorem C86_repeated (vt : VType) :
    let df : RowTable Char := ⟨[['X'], ['Y']], [['a', 'p'], ['a', 'q']]⟩
    frRead vt df none [(['X'], 'a')] = .ok 'p' ∧ frRead vt df none [(['X'], 'b')] = .ok 'q' := by
  cases vt <;> decide +kernel

/-- **C86** fails when the name of a column is a part of the name of the left variable. -/
theorem C86_names (vt : VType) :
    ListsFunction (⟨[['X'], ['X', '1']], [['a', 'p'], ['b', 'q']]⟩ : RowTable Char)
      [(['X'], ['a', 'b']), (['X', '1'], ['p', 'q'])] [(['X'], ['a', 'b'])] ['X', '1'] ['p', 'q'] ∧
    (DetFactor.fromFrame (labelStoreOf vt) '?' ⟨[['X'], ['X', '1']], [['a', 'p'], ['b', 'q']]⟩
      [(['X'], ['a', 'b']), (['X', '1'], ['p', 'q'])] none) = .error .valueError := by
  refine ⟨⟨rfl, by decide, ⟨by decide, by decide, by decide⟩, ?_, by decide⟩, by cases vt <;> rfl⟩
  intro row hr
  rw [← mem_product]
  revert row
  decide

/-- **C86** a frame with a state that is not in the domain: the cell of the caller becomes `nan`. -/
theorem C86_caller_example : RowTable.cast '?' [['a', 'b'], ['p', 'q']] [['a', 'p'], ['z', 'q']] = [['a', 'p'], ['?', 'q']] := by
  decide

end Verif.Props
