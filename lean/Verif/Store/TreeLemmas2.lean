import Verif.Store.TreeLemmas

/-!
# Laws of the tree store (continued): several variables, construction, writing
-/

set_option linter.unusedSectionVars false
set_option linter.unusedSimpArgs false

namespace Verif

variable {V S α : Type} [DecidableEq V] [DecidableEq S]

theorem nodup_variants {d : Dom V S} (hd : DomOk d) (a : V → S) : (variants d a).Nodup := by
  induction d generalizing a with
  | nil => simp [variants]
  | cons p d ih =>
    rw [variants, List.nodup_flatMap]
    refine ⟨fun s _ => ih hd.tail _, ?_⟩
    refine (hd.states p List.mem_cons_self).imp ?_
    intro s t hst b hb hb'
    have h1 := variants_not_mem hb hd.head
    have h2 := variants_not_mem hb' hd.head
    rw [upd_same] at h1 h2
    exact hst (h1.symm.trans h2)

theorem variants_ne_nil {d : Dom V S} (hd : DomOk d) (a : V → S) : variants d a ≠ [] := by
  induction d generalizing a with
  | nil => simp [variants]
  | cons p d ih =>
    rw [variants]
    obtain ⟨s, hs⟩ := List.exists_mem_of_ne_nil _ (hd.nonempty p List.mem_cons_self)
    intro h
    rw [List.flatMap_eq_nil_iff] at h
    exact ih hd.tail _ (h s hs)

theorem red_append [Inhabited α] {op : α → α → α} [Std.Associative op] {l m : List α}
    (hl : l ≠ []) (hm : m ≠ []) : red op (l ++ m) = op (red op l) (red op m) := by
  cases l with
  | nil => exact absurd rfl hl
  | cons x xs =>
    cases m with
    | nil => exact absurd rfl hm
    | cons y ys =>
      simp only [red, List.cons_append, List.foldl_append, List.foldl_cons]
      exact List.foldl_assoc

theorem red_flatMap [Inhabited α] {β : Type} {op : α → α → α} [Std.Associative op] {f : β → List α}
    (hf : ∀ b, f b ≠ []) (l : List β) : red op (l.map fun b => red op (f b)) = red op (l.flatMap f) := by
  rcases l with _ | ⟨b, l⟩
  · rfl
  · induction l generalizing b with
    | nil => simp [red]
    | cons c l ih =>
      have h1 : (List.flatMap f (c :: l)) ≠ [] := by simp [hf c]
      rw [List.flatMap_cons, red_append (hf b) h1, ← ih c, List.map_cons]
      have := red_append (op := op) (l := [red op (f b)]) (m := (c :: l).map fun b => red op (f b))
        (by simp) (by simp)
      simpa [red] using this

theorem red_add [AddCommMonoid α] [Inhabited α] {l : List α} (h : l ≠ []) :
    red (· + ·) l = l.sum := by
  cases l with
  | nil => exact absurd rfl h
  | cons x xs =>
    rw [red, List.sum_cons]
    induction xs generalizing x with
    | nil => simp
    | cons y ys ih => simp only [List.foldl_cons, List.sum_cons]; rw [ih (x + y) (by simp), add_assoc]

theorem red_const {op : α → α → α} [Inhabited α] (hid : ∀ x, op x x = x) (x : α) {l : List S} (h : l ≠ []) :
    red op (l.map fun _ => x) = x := by
  cases l with
  | nil => exact absurd rfl h
  | cons s l =>
    rw [List.map_cons, red]
    induction l with
    | nil => rfl
    | cons t l ih => rw [List.map_cons, List.foldl_cons, hid]; exact ih (by simp)

theorem domOut_cons (d : Dom V S) (v : V) (vars : List V) :
    domOut d (v :: vars) = domOut (d.filter fun p => p.1 ≠ v) vars := by
  rw [domOut, domOut, List.filter_filter]
  exact List.filter_congr fun p _ => by simp; rw [Bool.and_comm]

theorem perm_variants_cons {d : Dom V S} (hd : DomOk d) {v : V} {st : List S} (hv : (v, st) ∈ d)
    {vars : List V} (hvv : v ∉ vars) (a : V → S) :
    ((variants (domIn (d.filter fun p => p.1 ≠ v) vars) a).flatMap fun b => st.map (upd b v)).Perm
      (variants (domIn d (v :: vars)) a) := by
  have hd' : DomOk (domIn (d.filter fun p => p.1 ≠ v) vars) := (hd.filter (fun w => w ≠ v)).domIn vars
  have hd2 := hd.domIn (v :: vars)
  have hkey : ∀ w, w ∈ Dict.keys (domIn d (v :: vars)) ↔
      w = v ∨ w ∈ Dict.keys (domIn (d.filter fun p => p.1 ≠ v) vars) := by
    intro w
    rw [keys_domIn, keys_domIn, Dict.keys_filter_key d (fun w => w ≠ v)]
    simp only [List.mem_filter, List.mem_cons, decide_eq_true_eq]
    constructor
    · rintro ⟨h1, h2⟩
      by_cases h : w = v
      · exact Or.inl h
      · exact Or.inr ⟨⟨h1, h⟩, h2.resolve_left h⟩
    · rintro (rfl | ⟨⟨h1, _⟩, h2⟩)
      · exact ⟨Dict.mem_keys_of_mem hv, Or.inl rfl⟩
      · exact ⟨h1, Or.inr h2⟩
  have hnv : v ∉ Dict.keys (domIn (d.filter fun p => p.1 ≠ v) vars) := by
    rw [keys_domIn, List.mem_filter]; rintro ⟨_, h⟩; exact hvv (by simpa using h)
  refine (List.perm_ext_iff_of_nodup ?_ (nodup_variants hd2 a)).2 ?_
  · rw [List.nodup_flatMap]
    refine ⟨fun b _ => List.Nodup.map ?_ (hd.states _ hv), ?_⟩
    · intro s t h
      have := congrFun h v
      simpa using this
    · refine (List.Pairwise.imp_of_mem ?_ (nodup_variants hd' a))
      intro b c hb hc hbc x hx hx'
      rw [List.mem_map] at hx hx'
      obtain ⟨s, _, rfl⟩ := hx
      obtain ⟨t, _, ht⟩ := hx'
      apply hbc
      funext w
      by_cases h : w = v
      · subst h
        rw [variants_not_mem hb hnv, variants_not_mem hc hnv]
      · have := congrFun ht w
        rw [upd_ne _ _ h, upd_ne _ _ h] at this
        exact this.symm
  · intro b
    rw [List.mem_flatMap, mem_variants hd2.keys]
    constructor
    · rintro ⟨c, hc, hb⟩
      rw [List.mem_map] at hb
      obtain ⟨s, hs, rfl⟩ := hb
      rw [mem_variants hd'.keys] at hc
      constructor
      · intro p hp
        have hp' : p ∈ d := (List.mem_filter.1 hp).1
        by_cases h : p.1 = v
        · have e1 := Dict.get?_of_mem hd.keys hv
          have e2 : Dict.get? d p.1 = some p.2 := Dict.get?_of_mem hd.keys hp'
          rw [h, e1] at e2
          rw [h, upd_same, ← Option.some.inj e2]; exact hs
        · rw [upd_ne _ _ h]
          refine hc.1 p (List.mem_filter.2 ⟨List.mem_filter.2 ⟨hp', by simpa using h⟩, ?_⟩)
          have := (List.mem_filter.1 hp).2
          simpa [h] using this
      · intro w hw
        rw [hkey, not_or] at hw
        rw [upd_ne _ _ hw.1, hc.2 w hw.2]
    · rintro ⟨h1, h2⟩
      refine ⟨upd b v (a v), ?_, ?_⟩
      · rw [mem_variants hd'.keys]
        constructor
        · intro p hp
          have hp1 := List.mem_filter.1 hp
          have hp2 := List.mem_filter.1 hp1.1
          rw [upd_ne _ _ (by simpa using hp2.2)]
          exact h1 p (List.mem_filter.2 ⟨hp2.1, by simpa using Or.inr (by simpa using hp1.2)⟩)
        · intro w hw
          by_cases h : w = v
          · rw [h, upd_same]
          · rw [upd_ne _ _ h]; exact h2 w (by rw [hkey, not_or]; exact ⟨h, hw⟩)
      · rw [List.mem_map]
        refine ⟨b v, ?_, by rw [upd_upd, upd_self]⟩
        exact h1 (v, st) (List.mem_filter.2 ⟨hv, by simp⟩)

theorem margFold_ok [Inhabited α] {op : α → α → α} [Std.Commutative op] [Std.Associative op]
    {scaleOf : List S → α → α}
    (hsc : ∀ st : List S, st ≠ [] → ∀ x, scaleOf st x = red op (st.map fun _ => x))
    {D : Dom V S} {step : Tree V S α → V → Py (Tree V S α)}
    (hstep : ∀ v st t, (v, st) ∈ D → step t v = Tree.marg op (scaleOf st) v t) :
    ∀ (vars : List V) {d : Dom V S} {t : Tree V S α}, DomOk d → (∀ p ∈ d, p ∈ D) → Tree.Ok d t →
      vars.Nodup → (∀ v ∈ vars, v ∈ Dict.keys d) →
      ∃ r, vars.foldlM step t = .ok r ∧ Tree.Ok (domOut d vars) r ∧
        ∀ a, InDom (domOut d vars) a → Tree.eval a r
          = some (red op ((variants (domIn d vars) a).map fun b => (Tree.eval b t).getD default)) := by
  intro vars
  induction vars with
  | nil =>
    intro d t hd _ ht _ _
    have e1 : domOut d [] = d := by simp [domOut]
    have e2 : domIn d [] = [] := by simp [domIn]
    refine ⟨t, rfl, by rw [e1]; exact ht, ?_⟩
    intro a ha
    rw [e1] at ha
    obtain ⟨x, hx⟩ := Option.isSome_iff_exists.1 (Tree.eval_isSome hd.keys ht ha)
    simp [e2, variants, red, hx]
  | cons v vars ih =>
    intro d t hd hD ht hnd hsub
    rw [List.nodup_cons] at hnd
    obtain ⟨st, hst⟩ := Dict.mem_keys.1 (hsub v List.mem_cons_self)
    obtain ⟨r1, m1, m2, m3⟩ := Tree.marg_ok (hd.nonempty _ hst) (hsc st (hd.nonempty _ hst)) hd hst ht
    have hd' : DomOk (d.filter fun p => p.1 ≠ v) := hd.filter (fun w => w ≠ v)
    obtain ⟨r, h1, h2, h3⟩ := ih hd' (fun p hp => hD p (List.mem_filter.1 hp).1) m2 hnd.2 (by
      intro w hw
      rw [Dict.keys_filter_key d (fun w => w ≠ v), List.mem_filter]
      refine ⟨hsub w (List.mem_cons_of_mem _ hw), ?_⟩
      have : w ≠ v := by rintro rfl; exact hnd.1 hw
      simpa using this)
    refine ⟨r, ?_, by rw [domOut_cons]; exact h2, ?_⟩
    · rw [List.foldlM_cons, hstep v st t (hD _ hst), m1]; exact h1
    · intro a ha
      rw [domOut_cons] at ha
      rw [h3 a ha]
      congr 1
      have hin : ∀ b ∈ variants (domIn (d.filter fun p => p.1 ≠ v) vars) a,
          InDom (d.filter fun p => p.1 ≠ v) b := by
        intro b hb p hp
        rw [mem_variants (hd'.domIn vars).keys] at hb
        by_cases h : p.1 ∈ vars
        · exact hb.1 p (List.mem_filter.2 ⟨hp, by simpa using h⟩)
        · rw [hb.2 p.1 (by rw [keys_domIn, List.mem_filter]; rintro ⟨_, h'⟩; exact h (by simpa using h'))]
          exact ha p (List.mem_filter.2 ⟨hp, by simpa using h⟩)
      have hmap : (variants (domIn (d.filter fun p => p.1 ≠ v) vars) a).map
            (fun b => (Tree.eval b r1).getD default)
          = (variants (domIn (d.filter fun p => p.1 ≠ v) vars) a).map
            (fun b => red op ((st.map (upd b v)).map fun c => (Tree.eval c t).getD default)) := by
        refine List.map_congr_left fun b hb => ?_
        obtain ⟨xs, x1, x2⟩ := m3 b (hin b hb)
        rw [x2, Option.getD_some]
        congr 1
        have := congrArg (List.map fun o : Option α => o.getD default) x1
        simpa [Function.comp_def] using this.symm
      rw [hmap, red_flatMap]
      · rw [← List.map_flatMap]
        exact red_perm ((perm_variants_cons hd hst hnd.1 a).map _)
      · intro b; simpa using hd.nonempty _ hst

/-! ### Construction from flat values -/

theorem Forest.eval_ofList (a : V → S) (s : S) (l : List (S × Tree V S α)) :
    Forest.eval a s (Forest.ofList l) = (Dict.get? l s).bind (Tree.eval a) := by
  induction l with
  | nil => simp [Forest.ofList, Forest.eval, Dict.get?]
  | cons p l ih =>
    rw [Forest.ofList, Forest.eval, ih]
    simp only [Dict.get?]
    split <;> rfl

theorem Forest.keys_ofList (l : List (S × Tree V S α)) : (Forest.ofList l).keys = l.map Prod.fst := by
  induction l with
  | nil => rfl
  | cons p l ih => simp [Forest.ofList, Forest.keys, ih]

theorem Forest.ok_ofList {d : Dom V S} {l : List (S × Tree V S α)} (h : ∀ p ∈ l, Tree.Ok d p.2) :
    Forest.Ok d (Forest.ofList l) := by
  induction l with
  | nil => simp [Forest.ofList, Forest.Ok]
  | cons p l ih =>
    rw [Forest.ofList, Forest.Ok]
    exact ⟨h p List.mem_cons_self, ih fun q hq => h q (List.mem_cons_of_mem _ hq)⟩

mutual
/-- Every path of the tree branches on every variable of the list. -/
def Tree.Full : List V → Tree V S α → Prop
  | ks, .leaf _ => ks = []
  | ks, .node v ch => Forest.Full (ks.filter fun w => w ≠ v) ch
def Forest.Full : List V → Forest V S α → Prop
  | _, .nil => True
  | ks, .cons _ t f => Tree.Full ks t ∧ Forest.Full ks f
end

theorem filter_set_congr {ks ks' : List V} (h : ∀ v, v ∈ ks ↔ v ∈ ks') (v : V) :
    ∀ w, w ∈ ks.filter (fun w => w ≠ v) ↔ w ∈ ks'.filter (fun w => w ≠ v) := by
  intro w; simp [List.mem_filter, h w]

mutual
theorem Tree.Full.congr : ∀ {t : Tree V S α} {ks ks' : List V}, (∀ v, v ∈ ks ↔ v ∈ ks') →
    Tree.Full ks t → Tree.Full ks' t
  | .leaf _, ks, ks', h, ht => by
    rw [Tree.Full] at ht ⊢
    subst ht
    exact List.eq_nil_iff_forall_not_mem.2 fun v hv => by simpa using (h v).2 hv
  | .node v ch, ks, ks', h, ht => by
    rw [Tree.Full] at ht ⊢
    exact Forest.Full.congr (filter_set_congr h v) ht
theorem Forest.Full.congr : ∀ {f : Forest V S α} {ks ks' : List V}, (∀ v, v ∈ ks ↔ v ∈ ks') →
    Forest.Full ks f → Forest.Full ks' f
  | .nil, _, _, _, _ => by simp [Forest.Full]
  | .cons _ t f, _, _, h, ht => by
    rw [Forest.Full] at ht ⊢
    exact ⟨Tree.Full.congr h ht.1, Forest.Full.congr h ht.2⟩
end

mutual
theorem Tree.Full.restrict : ∀ {t : Tree V S α} {ks : List V} {obs : Obs V S} {r : Tree V S α},
    Tree.restrict obs t = .ok r → Tree.Full ks t →
    Tree.Full (ks.filter fun v => v ∉ Dict.keys obs) r
  | .leaf x, ks, obs, r, h, ht => by
    rw [Tree.restrict] at h
    cases h
    rw [Tree.Full] at ht ⊢
    simp [ht]
  | .node v ch, ks, obs, r, h, ht => by
    rw [Tree.restrict] at h
    split at h
    · rename_i h0
      cases h
      have : obs = [] := List.length_eq_zero_iff.1 h0
      subst this
      refine Tree.Full.congr ?_ ht
      intro w; simp
    · rw [Tree.Full] at ht
      split at h
      · rename_i hg
        have hv : v ∉ Dict.keys obs := Dict.get?_eq_none.1 hg
        rcases hch : Forest.restrictAll obs ch with e | ch'
        · rw [hch] at h; simp at h
        · rw [hch] at h
          simp only [py_ok_bind, py_pure, Except.ok.injEq] at h
          subst h
          rw [Tree.Full]
          refine Forest.Full.congr ?_ (Forest.Full.restrictAll hch ht)
          intro w; simp only [List.mem_filter, decide_eq_true_eq]; tauto
      · rename_i s hg
        have hv : v ∈ Dict.keys obs := Dict.get?_isSome.1 (by simp [hg])
        refine Tree.Full.congr ?_ (Forest.Full.restrictAt h ht)
        intro w
        simp only [List.mem_filter, decide_eq_true_eq, Dict.keys_filter_key obs (fun w => w ≠ v)]
        constructor
        · rintro ⟨⟨h1, h2⟩, h3⟩; exact ⟨h1, fun h => h3 ⟨h, h2⟩⟩
        · rintro ⟨h1, h2⟩; exact ⟨⟨h1, by rintro rfl; exact h2 hv⟩, fun h => h2 h.1⟩
theorem Forest.Full.restrictAll : ∀ {t : Forest V S α} {ks : List V} {obs : Obs V S} {r : Forest V S α},
    Forest.restrictAll obs t = .ok r → Forest.Full ks t →
    Forest.Full (ks.filter fun v => v ∉ Dict.keys obs) r
  | .nil, ks, obs, r, h, ht => by
    rw [Forest.restrictAll] at h
    cases h; simp [Forest.Full]
  | .cons s t f, ks, obs, r, h, ht => by
    rw [Forest.restrictAll] at h
    rw [Forest.Full] at ht
    rcases h1 : Tree.restrict obs t with e | t'
    · rw [h1] at h; simp at h
    · rw [h1, py_ok_bind] at h
      rcases h2 : Forest.restrictAll obs f with e | f'
      · rw [h2] at h; simp at h
      · rw [h2, py_ok_bind] at h
        cases h
        rw [Forest.Full]
        exact ⟨Tree.Full.restrict h1 ht.1, Forest.Full.restrictAll h2 ht.2⟩
theorem Forest.Full.restrictAt : ∀ {t : Forest V S α} {ks : List V} {obs : Obs V S} {s : S}
    {r : Tree V S α}, Forest.restrictAt obs s t = .ok r → Forest.Full ks t →
    Tree.Full (ks.filter fun v => v ∉ Dict.keys obs) r
  | .nil, ks, obs, s, r, h, ht => by rw [Forest.restrictAt] at h; cases h
  | .cons s' t f, ks, obs, s, r, h, ht => by
    rw [Forest.restrictAt] at h
    rw [Forest.Full] at ht
    split at h
    · exact Tree.Full.restrict h ht.1
    · exact Forest.Full.restrictAt h ht.2
end

mutual
theorem Tree.Full.combLeaf {op : α → α → α} {x : α} : ∀ {t : Tree V S α} {ks : List V},
    Tree.Full ks t → Tree.Full ks (Tree.combLeaf op x t)
  | .leaf y, ks, h => by rw [Tree.combLeaf, Tree.Full] at *; exact h
  | .node v ch, ks, h => by
    rw [Tree.combLeaf, Tree.Full]; rw [Tree.Full] at h; exact Forest.Full.combLeaf h
theorem Forest.Full.combLeaf {op : α → α → α} {x : α} : ∀ {t : Forest V S α} {ks : List V},
    Forest.Full ks t → Forest.Full ks (Forest.combLeaf op x t)
  | .nil, _, _ => by simp [Forest.combLeaf, Forest.Full]
  | .cons s t f, ks, h => by
    rw [Forest.combLeaf, Forest.Full]; rw [Forest.Full] at h
    exact ⟨Tree.Full.combLeaf h.1, Forest.Full.combLeaf h.2⟩
end

mutual
theorem Tree.Full.combine {op : α → α → α} : ∀ {t1 t2 r : Tree V S α} {k1 k2 K : List V},
    (∀ v, v ∈ K ↔ v ∈ k1 ∨ v ∈ k2) → Tree.combine op t1 t2 = .ok r → Tree.Full k1 t1 →
    Tree.Full k2 t2 → Tree.Full K r
  | .leaf x, t2, r, k1, k2, K, hK, h, h1, h2 => by
    rw [Tree.combine] at h
    cases h
    rw [Tree.Full] at h1
    subst h1
    exact Tree.Full.congr (fun v => by simp [hK v]) (Tree.Full.combLeaf h2)
  | .node v ch, t2, r, k1, k2, K, hK, h, h1, h2 => by
    rw [Tree.combine] at h
    rcases hc : Forest.combine op v ch t2 with e | ch'
    · rw [hc] at h; simp at h
    · rw [hc, py_ok_bind] at h
      cases h
      rw [Tree.Full] at h1 ⊢
      refine Forest.Full.combine (k1 := k1.filter fun w => w ≠ v) (k2 := k2) ?_ hc h1 h2
      intro w
      simp only [List.mem_filter, hK, decide_eq_true_eq]; tauto
theorem Forest.Full.combine {op : α → α → α} {v : V} : ∀ {f : Forest V S α} {t2 : Tree V S α}
    {r : Forest V S α} {k1 k2 K : List V},
    (∀ w, w ∈ K ↔ w ∈ k1 ∨ (w ∈ k2 ∧ w ≠ v)) → Forest.combine op v f t2 = .ok r → Forest.Full k1 f →
    Tree.Full k2 t2 → Forest.Full K r
  | .nil, t2, r, k1, k2, K, hK, h, h1, h2 => by
    rw [Forest.combine] at h; cases h; simp [Forest.Full]
  | .cons s t f, t2, r, k1, k2, K, hK, h, h1, h2 => by
    rw [Forest.combine] at h
    rw [Forest.Full] at h1
    rcases a1 : Tree.restrict [(v, s)] t2 with e | d2
    · rw [a1] at h; simp at h
    · rw [a1, py_ok_bind] at h
      rcases a2 : Tree.combine op t d2 with e | t'
      · rw [a2] at h; simp at h
      · rw [a2, py_ok_bind] at h
        rcases a3 : Forest.combine op v f t2 with e | f'
        · rw [a3] at h; simp at h
        · rw [a3, py_ok_bind] at h
          cases h
          rw [Forest.Full]
          refine ⟨Tree.Full.combine ?_ a2 h1.1 (Tree.Full.restrict a1 h2), Forest.Full.combine hK a3 h1.2 h2⟩
          intro w; simp [hK w]
end

theorem foldlM_combine_full {op : α → α → α} {ks : List V} : ∀ (ts : List (Tree V S α))
    (acc : Tree V S α) {r : Tree V S α}, (∀ t ∈ ts, Tree.Full ks t) → Tree.Full ks acc →
    ts.foldlM (Tree.combine op) acc = .ok r → Tree.Full ks r
  | [], acc, r, _, ha, h => by cases h; exact ha
  | t :: ts, acc, r, ht, ha, h => by
    rw [List.foldlM_cons] at h
    rcases hc : Tree.combine op acc t with e | c
    · rw [hc] at h; simp at h
    · rw [hc, py_ok_bind] at h
      exact foldlM_combine_full ts c (fun t' ht' => ht t' (List.mem_cons_of_mem _ ht'))
        (Tree.Full.combine (fun v => by simp) hc ha (ht t List.mem_cons_self)) h

theorem Forest.Full.values {ks : List V} : ∀ {f : Forest V S α}, Forest.Full ks f →
    ∀ t ∈ f.values, Tree.Full ks t
  | .nil, _, t, ht => by simp [Forest.values] at ht
  | .cons s t' f, hf, t, ht => by
    rw [Forest.Full] at hf
    rw [Forest.values, List.mem_cons] at ht
    rcases ht with rfl | ht
    · exact hf.1
    · exact Forest.Full.values hf.2 t ht

mutual
theorem Tree.Full.marg {op : α → α → α} {scale : α → α} {v : V} : ∀ {t r : Tree V S α} {ks : List V},
    Tree.marg op scale v t = .ok r → Tree.Full ks t → Tree.Full (ks.filter fun w => w ≠ v) r
  | .leaf x, r, ks, h, ht => by
    rw [Tree.marg] at h; cases h
    rw [Tree.Full] at ht ⊢
    simp [ht]
  | .node w ch, r, ks, h, ht => by
    rw [Tree.marg] at h
    rw [Tree.Full] at ht
    split at h
    · rename_i hw
      subst hw
      have hv := Forest.Full.values ht
      revert h hv
      cases ch.values with
      | nil => intro h; simp [Numpy1DStore.reduceM] at h
      | cons t ts =>
        intro h hv
        exact foldlM_combine_full ts t (fun t' ht' => hv t' (List.mem_cons_of_mem _ ht'))
          (hv t List.mem_cons_self) h
    · rcases hc : Forest.marg op scale v ch with e | ch'
      · rw [hc] at h; simp at h
      · rw [hc, py_ok_bind] at h
        cases h
        rw [Tree.Full]
        refine Forest.Full.congr ?_ (Forest.Full.marg hc ht)
        intro u; simp only [List.mem_filter, decide_eq_true_eq]; tauto
theorem Forest.Full.marg {op : α → α → α} {scale : α → α} {v : V} : ∀ {t r : Forest V S α} {ks : List V},
    Forest.marg op scale v t = .ok r → Forest.Full ks t → Forest.Full (ks.filter fun w => w ≠ v) r
  | .nil, r, ks, h, _ => by rw [Forest.marg] at h; cases h; simp [Forest.Full]
  | .cons s t f, r, ks, h, ht => by
    rw [Forest.marg] at h
    rw [Forest.Full] at ht
    rcases h1 : Tree.marg op scale v t with e | t'
    · rw [h1] at h; simp at h
    · rw [h1, py_ok_bind] at h
      rcases h2 : Forest.marg op scale v f with e | f'
      · rw [h2] at h; simp at h
      · rw [h2, py_ok_bind] at h
        cases h
        rw [Forest.Full]
        exact ⟨Tree.Full.marg h1 ht.1, Forest.Full.marg h2 ht.2⟩
end

theorem Forest.full_ofList {d : List V} {l : List (S × Tree V S α)} (h : ∀ p ∈ l, Tree.Full d p.2) :
    Forest.Full d (Forest.ofList l) := by
  induction l with
  | nil => simp [Forest.ofList, Forest.Full]
  | cons p l ih =>
    rw [Forest.ofList, Forest.Full]
    exact ⟨h p List.mem_cons_self, ih fun q hq => h q (List.mem_cons_of_mem _ hq)⟩

theorem get?_zip_idx {β : Type} (st : List S) (xs : List β) (s : S) (hs : s ∈ st) :
    Dict.get? (st.zip xs) s = xs[st.idxOf s]? := by
  induction st generalizing xs with
  | nil => simp at hs
  | cons x st ih =>
    cases xs with
    | nil => simp [Dict.get?]
    | cons y ys =>
      simp only [List.zip_cons_cons, Dict.get?]
      by_cases h : x = s
      · simp [h]
      · rw [if_neg h, ih ys ((List.mem_cons.1 hs).resolve_left (Ne.symm h)),
          List.idxOf_cons_ne _ h]; simp

theorem filter_ne_tail {p : V × List S} {d : Dom V S} (h : (Dict.keys (p :: d)).Nodup) :
    ((p :: d).filter fun q => q.1 ≠ p.1) = d := by
  simp only [Dict.keys_cons, List.nodup_cons] at h
  rw [List.filter_cons_of_neg (by simp), List.filter_eq_self]
  intro q hq
  have : q.1 ≠ p.1 := by
    intro e; exact h.1 (e ▸ Dict.mem_keys_of_mem (show (q.1, q.2) ∈ d from hq))
  simpa using this

theorem buildDefaultTree_ok [Inhabited α] : ∀ (d : Dom V S) (data : List α), DomOk d →
    data.length = (cards d).prod →
    Tree.Ok d (buildDefaultTree d data) ∧ Tree.Full (Dict.keys d) (buildDefaultTree d data) ∧
      ∀ a, InDom d a → Tree.eval a (buildDefaultTree d data) = data[ravel (cards d) (coords d a)]?
  | [], data, _, hl => by
    have : data.length = 1 := by simpa [cards] using hl
    obtain ⟨x, rfl⟩ := List.length_eq_one_iff.1 this
    refine ⟨by simp [buildDefaultTree, Tree.Ok], by simp [buildDefaultTree, Tree.Full], ?_⟩
    intro a _; simp [buildDefaultTree, Tree.eval, cards, coords]
  | [p], data, hd, hl => by
    have hl' : data.length = p.2.length := by simpa [cards] using hl
    have hfl : ([p].filter fun q => q.1 ≠ p.1) = [] := by simp
    refine ⟨?_, ?_, ?_⟩
    · rw [buildDefaultTree, Tree.Ok]
      refine ⟨⟨p.2, by simp, ?_⟩, ?_⟩
      · rw [Forest.keys_ofList, List.map_map]
        have : (p.2.zip data).map (Prod.fst ∘ fun q => (q.1, (Tree.leaf q.2 : Tree V S α))) = p.2 := by
          have := List.map_fst_zip (l₁ := p.2) (l₂ := data) (by omega)
          simpa [Function.comp_def] using this
        rw [this]
      · refine Forest.ok_ofList fun q hq => ?_
        rw [List.mem_map] at hq
        obtain ⟨x, _, rfl⟩ := hq
        simp [Tree.Ok]
    · rw [buildDefaultTree, Tree.Full]
      refine Forest.full_ofList fun q hq => ?_
      rw [List.mem_map] at hq
      obtain ⟨x, _, rfl⟩ := hq
      simp [Tree.Full, hfl]
    · intro a ha
      have hs : a p.1 ∈ p.2 := ha p List.mem_cons_self
      rw [buildDefaultTree, Tree.eval, Forest.eval_ofList]
      rw [Dict.get?_map_snd (p.2.zip data) (fun _ x => (Tree.leaf x : Tree V S α)) (a p.1),
        get?_zip_idx _ _ _ hs]
      simp [cards, coords]
      cases data[p.2.idxOf (a p.1)]? <;> simp [Tree.eval]
  | p :: q :: d, data, hd, hl => by
    have hpd : (cards (p :: q :: d)).prod = p.2.length * (cards (q :: d)).prod := by simp [cards]
    have hlen : ∀ i, i < p.2.length →
        ((data.drop (i * (cards (q :: d)).prod)).take (cards (q :: d)).prod).length
          = (cards (q :: d)).prod := by
      intro i hi
      rw [List.length_take, List.length_drop, hl, hpd]
      have h1 : (i + 1) * (cards (q :: d)).prod ≤ p.2.length * (cards (q :: d)).prod :=
        Nat.mul_le_mul_right _ hi
      rw [Nat.succ_mul] at h1
      omega
    have hfl := filter_ne_tail hd.keys
    have ih := fun i (hi : i < p.2.length) => buildDefaultTree_ok (q :: d)
      ((data.drop (i * (cards (q :: d)).prod)).take (cards (q :: d)).prod) hd.tail (hlen i hi)
    refine ⟨?_, ?_, ?_⟩
    · rw [buildDefaultTree, Tree.Ok]
      · refine ⟨⟨p.2, by simp, ?_⟩, ?_⟩
        · rw [Forest.keys_ofList, List.map_map]
          have := List.map_fst_zip (l₁ := p.2) (l₂ := List.range p.2.length) (by simp)
          have h2 : (p.2.zip (List.range p.2.length)).map (Prod.fst ∘ fun r : S × Nat =>
            (r.1, (buildDefaultTree (q :: d)
              ((data.drop (r.2 * (cards (q :: d)).prod)).take (cards (q :: d)).prod) : Tree V S α))) = p.2 := by
            simpa [Function.comp_def] using this
          rw [h2]
        · rw [hfl]
          refine Forest.ok_ofList fun x hx => ?_
          rw [List.mem_map] at hx
          obtain ⟨y, hy, rfl⟩ := hx
          exact (ih y.2 (by simpa using (List.of_mem_zip hy).2)).1
      · simp
    · rw [buildDefaultTree, Tree.Full]
      · rw [← Dict.keys_filter_key (p :: q :: d) (fun w => w ≠ p.1), hfl]
        refine Forest.full_ofList fun x hx => ?_
        rw [List.mem_map] at hx
        obtain ⟨y, hy, rfl⟩ := hx
        exact (ih y.2 (by simpa using (List.of_mem_zip hy).2)).2.1
      · simp
    · intro a ha
      have hs : a p.1 ∈ p.2 := ha p List.mem_cons_self
      have hi := List.idxOf_lt_length_of_mem hs
      rw [buildDefaultTree, Tree.eval, Forest.eval_ofList]
      · rw [Dict.get?_map_snd (p.2.zip (List.range p.2.length)) (fun _ (i : Nat) =>
            (buildDefaultTree (q :: d)
              ((data.drop (i * (cards (q :: d)).prod)).take (cards (q :: d)).prod) : Tree V S α)) (a p.1),
          get?_zip_idx _ _ _ hs, List.getElem?_range hi]
        simp only [Option.map_some, Option.bind_some]
        have ha' : InDom (q :: d) a := ha.sub fun x hx => List.mem_cons_of_mem _ hx
        rw [(ih _ hi).2.2 a ha']
        have hlt := ravel_lt (validIdx_coords ha')
        rw [List.getElem?_take_of_lt hlt, List.getElem?_drop]
        congr 1
        simp [cards, coords, Nat.mul_comm]
      · simp

/-! ### Writing a cell -/

theorem nodup_keys_filter_ne' {d : Dom V S} (hn : (Dict.keys d).Nodup) (v : V) :
    ∀ w, w ∈ Dict.keys (d.filter fun p => p.1 ≠ v) ↔ w ∈ Dict.keys d ∧ w ≠ v := by
  intro w
  rw [Dict.keys_filter_key d (fun w => w ≠ v), List.mem_filter]; simp

mutual
theorem Tree.modify_ok (x : α) : ∀ {d : Dom V S} {obs : Obs V S} {b : V → S} {t : Tree V S α},
    (Dict.keys d).Nodup → InDom d b → Covers d obs b → Tree.Ok d t → Tree.Full (Dict.keys d) t →
    ∃ r, Tree.modify obs x t = .ok r ∧ Tree.Ok d r ∧ Tree.Full (Dict.keys d) r ∧
      (∀ a, (∀ v ∈ Dict.keys d, a v = b v) → Tree.eval a r = some x) ∧
      (∀ a, ¬ (∀ v ∈ Dict.keys d, a v = b v) → Tree.eval a r = Tree.eval a t)
  | d, obs, b, .leaf y, _, _, _, _, hfull => by
    rw [Tree.Full] at hfull
    refine ⟨.leaf x, by rw [Tree.modify], by simp [Tree.Ok], by rw [Tree.Full]; exact hfull, ?_, ?_⟩
    · intro a _; rw [Tree.eval]
    · intro a h; rw [hfull] at h; simp at h
  | d, obs, b, .node v ch, hn, hb, hc, hok, hfull => by
    rw [Tree.Ok] at hok
    rw [Tree.Full, ← Dict.keys_filter_key d (fun w => w ≠ v)] at hfull
    obtain ⟨⟨st, hst, hperm⟩, hf⟩ := hok
    have hvd : v ∈ Dict.keys d := Dict.mem_keys_of_mem hst
    have hv := hc v hvd
    have h0 : ¬ obs.length = 0 := by
      intro h
      have : obs = [] := List.length_eq_zero_iff.1 h
      rw [this] at hv; simp [Dict.get?] at hv
    have hk := nodup_keys_filter_ne' hn v
    obtain ⟨r, h1, h2, h3, h4, h5, h6⟩ := Forest.modifyAt_ok x (d := d.filter fun p => p.1 ≠ v)
      (obs := obs.filter fun p => p.1 ≠ v) (b := b) (s := b v) (f := ch)
      (nodup_filter_ne hn v) (hb.sub fun p hp => (List.mem_filter.1 hp).1) (by
        intro w hw
        rw [hk] at hw
        rw [Dict.get?_filter_key obs (fun w => w ≠ v), if_pos hw.2]
        exact hc w hw.1) hf hfull (hperm.mem_iff.2 (hb _ hst))
    refine ⟨.node v r, by rw [Tree.modify, if_neg h0, hv]; simp only []; rw [h1]; rfl, ?_, ?_, ?_, ?_⟩
    · rw [Tree.Ok]; exact ⟨⟨st, hst, by rw [h2]; exact hperm⟩, h3⟩
    · rw [Tree.Full, ← Dict.keys_filter_key d (fun w => w ≠ v)]; exact h4
    · intro a ha
      rw [Tree.eval, ha v hvd]
      exact h5 a fun w hw => ha w ((hk w).1 hw).1
    · intro a ha
      rw [Tree.eval, Tree.eval]
      refine h6 a _ ?_
      rintro ⟨e1, e2⟩
      apply ha
      intro w hw
      by_cases h : w = v
      · rw [h, e1]
      · exact e2 w ((hk w).2 ⟨hw, h⟩)
theorem Forest.modifyAt_ok (x : α) : ∀ {d : Dom V S} {obs : Obs V S} {b : V → S} {s : S}
    {f : Forest V S α}, (Dict.keys d).Nodup → InDom d b → Covers d obs b → Forest.Ok d f →
    Forest.Full (Dict.keys d) f → s ∈ f.keys →
    ∃ r, Forest.modifyAt obs x s f = .ok r ∧ r.keys = f.keys ∧ Forest.Ok d r ∧ Forest.Full (Dict.keys d) r ∧
      (∀ a, (∀ v ∈ Dict.keys d, a v = b v) → Forest.eval a s r = some x) ∧
      (∀ a s', ¬ (s' = s ∧ ∀ v ∈ Dict.keys d, a v = b v) → Forest.eval a s' r = Forest.eval a s' f)
  | d, obs, b, s, .nil, _, _, _, _, _, h => by simp [Forest.keys] at h
  | d, obs, b, s, .cons s' t f, hn, hb, hc, hok, hfull, hs => by
    rw [Forest.Ok] at hok
    rw [Forest.Full] at hfull
    by_cases he : s' = s
    · subst he
      obtain ⟨r, h1, h2, h3, h4, h5⟩ := Tree.modify_ok x hn hb hc hok.1 hfull.1
      refine ⟨.cons s' r f, by rw [Forest.modifyAt, if_pos rfl, h1]; rfl, by simp [Forest.keys],
        by rw [Forest.Ok]; exact ⟨h2, hok.2⟩, by rw [Forest.Full]; exact ⟨h3, hfull.2⟩, ?_, ?_⟩
      · intro a ha; rw [Forest.eval, if_pos rfl]; exact h4 a ha
      · intro a s'' h
        rw [Forest.eval, Forest.eval]
        split
        · rename_i e
          exact h5 a fun h' => h ⟨e.symm, h'⟩
        · rfl
    · rw [Forest.keys, List.mem_cons] at hs
      obtain ⟨r, h1, h2, h3, h4, h5, h6⟩ := Forest.modifyAt_ok x hn hb hc hok.2 hfull.2
        (hs.resolve_left (Ne.symm he))
      refine ⟨.cons s' t r, by rw [Forest.modifyAt, if_neg he, h1]; rfl, by simp [Forest.keys, h2],
        by rw [Forest.Ok]; exact ⟨hok.1, h3⟩, by rw [Forest.Full]; exact ⟨hfull.1, h4⟩, ?_, ?_⟩
      · intro a ha; rw [Forest.eval, if_neg he]; exact h5 a ha
      · intro a s'' h
        rw [Forest.eval, Forest.eval]
        split
        · rfl
        · exact h6 a s'' h
end

/-! ### The store -/

namespace TreeStore
variable [Inhabited α]

/-- Well-formed tree store. -/
structure WF (s : TreeStore V S α) : Prop where
  dom : DomOk s.dom
  ok : Tree.Ok s.dom s.data
  full : Tree.Full (Dict.keys s.dom) s.data

/-- Value at a total assignment. -/
def sem (s : TreeStore V S α) (a : V → S) : α := (Tree.eval a s.data).getD default

theorem build_ok {d : Dom V S} {t : Tree V S α} (h : Tree.Full (Dict.keys d) t) :
    build d t = .ok ⟨d, t⟩ := by
  cases t with
  | node v ch => rfl
  | leaf x =>
    rw [Tree.Full] at h
    cases d with
    | nil => rfl
    | cons p d => simp at h

theorem WF.eval {s : TreeStore V S α} (hs : s.WF) {a : V → S} (ha : InDom s.dom a) :
    Tree.eval a s.data = some (s.sem a) := by
  obtain ⟨x, hx⟩ := Option.isSome_iff_exists.1 (Tree.eval_isSome hs.dom.keys hs.ok ha)
  rw [sem, hx]; rfl

theorem sem_congr {s : TreeStore V S α} (hs : s.WF) {a b : V → S}
    (h : ∀ v ∈ Dict.keys s.dom, a v = b v) : s.sem a = s.sem b := by
  rw [sem, sem, Tree.eval_congr hs.ok h]

theorem restrict_ok {s : TreeStore V S α} (hs : s.WF) {obs : Obs V S} (ho : ObsOk s.dom obs) :
    ∃ r, s.restrict obs = .ok r ∧ r.WF ∧ r.dom = (s.dom.filter fun p => p.1 ∉ Dict.keys obs) ∧
      ∀ a, InDom r.dom a → r.sem a = s.sem (over obs a) := by
  obtain ⟨t, h1, h2, h3⟩ := Tree.restrict_ok hs.dom.keys ho hs.ok
  have hf : Tree.Full (Dict.keys (s.dom.filter fun p => p.1 ∉ Dict.keys obs)) t := by
    rw [Dict.keys_filter_key s.dom (fun v => v ∉ Dict.keys obs)]; exact hs.full.restrict h1
  refine ⟨⟨s.dom.filter fun p => p.1 ∉ Dict.keys obs, t⟩, by rw [restrict, h1, py_ok_bind, build_ok hf],
    ⟨hs.dom.filter (fun v => v ∉ Dict.keys obs), h2, hf⟩, rfl, ?_⟩
  intro a _
  simp only [sem, h3]

theorem Tree.ok_nil {t : Tree V S α} (h : Tree.Ok ([] : Dom V S) t) : ∃ x, t = .leaf x := by
  cases t with
  | leaf x => exact ⟨x, rfl⟩
  | node v ch => rw [Tree.Ok] at h; simp at h

theorem getValue_ok {s : TreeStore V S α} (hs : s.WF) {obs : Obs V S} {a : V → S}
    (ha : InDom s.dom a) (hc : Covers s.dom obs a) : s.getValue obs = .ok (s.sem a) := by
  obtain ⟨r, h1, h2, h3, h4⟩ := restrict_ok hs (obsOk_of_covers ha hc)
  rw [filter_covers hc] at h3
  have hok := h2.ok
  rw [h3] at hok
  obtain ⟨x, hx⟩ := Tree.ok_nil hok
  have hsem := h4 a (by rw [h3]; intro p hp; simp at hp)
  rw [getValue, h1, py_ok_bind, hx]
  have e : s.sem (over obs a) = s.sem a := by
    refine sem_congr hs ?_
    intro v hv
    rw [over_of_get? (hc v hv)]
  rw [e, sem, hx, Tree.eval] at hsem
  rw [← hsem]; rfl

theorem combine_ok (op : α → α → α) {s t : TreeStore V S α} (hs : s.WF) (ht : t.WF)
    (hc : SetCompat s.dom t.dom) :
    ∃ r, combine op s t = .ok r ∧ r.WF ∧ r.dom = Dict.merge s.dom t.dom ∧
      ∀ a, InDom r.dom a → r.sem a = op (s.sem a) (t.sem a) := by
  have hnd := hs.dom.merge ht.dom
  have s1 : DSub s.dom (Dict.merge s.dom t.dom) := by
    intro p hp
    rcases hg : Dict.get? t.dom p.1 with _ | st
    · refine ⟨p, ?_, rfl, .refl _⟩
      rw [Dict.merge, List.mem_append, List.mem_map]
      exact Or.inl ⟨p, hp, by simp [hg]⟩
    · refine ⟨(p.1, st), ?_, rfl, hc p hp (p.1, st) (Dict.mem_of_get? hg) rfl⟩
      rw [Dict.merge, List.mem_append, List.mem_map]
      exact Or.inl ⟨p, hp, by simp [hg]⟩
  have s2 : DSub t.dom (Dict.merge s.dom t.dom) := by
    intro p hp
    refine ⟨p, ?_, rfl, .refl _⟩
    have := Dict.get?_of_mem ht.dom.keys (show (p.1, p.2) ∈ t.dom from hp)
    refine Dict.mem_of_get? ?_
    rw [Dict.get?_merge, this]; rfl
  obtain ⟨r, h1, h2, h3⟩ := Tree.combine_ok op ht.dom.keys hnd.keys s1 s2 hs.ok ht.ok
  have hf : Tree.Full (Dict.keys (Dict.merge s.dom t.dom)) r := by
    refine Tree.Full.combine (fun v => ?_) h1 hs.full ht.full
    rw [Dict.keys_merge, List.mem_append, List.mem_filter]
    by_cases h : v ∈ Dict.keys s.dom <;> simp [h]
  refine ⟨⟨Dict.merge s.dom t.dom, r⟩, by rw [combine, h1, py_ok_bind, build_ok hf], ⟨hnd, h2, hf⟩, rfl, ?_⟩
  intro a ha
  have ha1 := hs.eval (inDom_of_merge_left hs.dom.keys hc ha)
  have ha2 := ht.eval (inDom_of_merge_right ht.dom.keys ha)
  rw [sem, h3 a ha, ha1, ha2]; rfl

theorem foldlM_full {step : Tree V S α → V → Py (Tree V S α)}
    (hstep : ∀ v t r (ks : List V), step t v = .ok r → Tree.Full ks t → Tree.Full (ks.filter fun w => w ≠ v) r) :
    ∀ (vars : List V) {t r : Tree V S α} {ks : List V}, vars.foldlM step t = .ok r → Tree.Full ks t →
      Tree.Full (ks.filter fun w => w ∉ vars) r
  | [], t, r, ks, h, ht => by
    cases h; exact ht.congr fun v => by simp
  | v :: vars, t, r, ks, h, ht => by
    rw [List.foldlM_cons] at h
    rcases h1 : step t v with e | t'
    · rw [h1] at h; simp at h
    · rw [h1, py_ok_bind] at h
      refine (foldlM_full hstep vars h (hstep v t t' ks h1 ht)).congr fun w => ?_
      simp only [List.mem_filter, decide_eq_true_eq, List.mem_cons, not_or]; tauto

theorem marginalize_ok [AddCommMonoid α] {s : TreeStore V S α} (hs : s.WF) {vars : List V}
    (hsub : ∀ v ∈ vars, v ∈ Dict.keys s.dom) (hnd : vars.Nodup) :
    ∃ r, s.marginalize vars = .ok r ∧ r.WF ∧ r.dom = domOut s.dom vars ∧
      ∀ a, InDom r.dom a → r.sem a = ((variants (domIn s.dom vars) a).map s.sem).sum := by
  have : Std.Commutative (α := α) (· + ·) := ⟨add_comm⟩
  have : Std.Associative (α := α) (· + ·) := ⟨add_assoc⟩
  obtain ⟨r, h1, h2, h3⟩ := margFold_ok (op := (· + ·)) (scaleOf := fun st (x : α) => st.length • x)
    (by
      intro st hst x
      rw [red_add (by simpa using hst)]
      simp) (D := s.dom) (step := fun t v => do
        let st ← Dict.get s.dom v
        Tree.marg (· + ·) (fun x => st.length • x) v t)
    (by
      intro v st t hv
      simp only [Dict.get, Dict.get?_of_mem hs.dom.keys hv]; rfl)
    vars hs.dom (fun p hp => hp) hs.ok hnd hsub
  have hf : Tree.Full (Dict.keys (domOut s.dom vars)) r := by
    rw [keys_domOut]
    refine foldlM_full ?_ vars h1 hs.full
    intro v t r ks h hk
    rcases hg : Dict.get s.dom v with e | st
    · simp only [hg] at h; cases h
    · simp only [hg, py_ok_bind] at h
      exact hk.marg h
  refine ⟨⟨domOut s.dom vars, r⟩, by rw [marginalize, h1]; exact build_ok hf,
    ⟨hs.dom.domOut vars, h2, hf⟩, rfl, ?_⟩
  intro a ha
  rw [sem, h3 a ha, Option.getD_some, red_add (by simpa using variants_ne_nil (hs.dom.domIn vars) a)]
  rfl

theorem maxmarginalize_ok [LinearOrder α] {s : TreeStore V S α} (hs : s.WF) {vars : List V}
    (hsub : ∀ v ∈ vars, v ∈ Dict.keys s.dom) (hnd : vars.Nodup) :
    ∃ r, s.maxmarginalize vars = .ok r ∧ r.WF ∧ r.dom = domOut s.dom vars ∧
      ∀ a, InDom r.dom a → r.sem a = NumpyStore.maxOf ((variants (domIn s.dom vars) a).map s.sem) := by
  obtain ⟨r, h1, h2, h3⟩ := margFold_ok (op := max) (scaleOf := fun _ (x : α) => x)
    (by
      intro st hst x
      rw [red_const (by simp) x hst]) (D := s.dom) (step := fun t v => Tree.marg max (fun x => x) v t)
    (fun v st t _ => rfl)
    vars hs.dom (fun p hp => hp) hs.ok hnd hsub
  have hf : Tree.Full (Dict.keys (domOut s.dom vars)) r := by
    rw [keys_domOut]
    exact foldlM_full (fun v t r ks h hk => hk.marg h) vars h1 hs.full
  refine ⟨⟨domOut s.dom vars, r⟩, by rw [maxmarginalize, h1]; exact build_ok hf,
    ⟨hs.dom.domOut vars, h2, hf⟩, rfl, ?_⟩
  intro a ha
  rw [sem, h3 a ha, Option.getD_some]
  rfl

theorem ofFlat_ok {d : Dom V S} {data : List α} (hd : DomOk d) (hl : data.length = (cards d).prod) :
    (ofFlat d data).WF ∧
      ∀ a, InDom d a → (ofFlat d data).sem a = data.getD (ravel (cards d) (coords d a)) default := by
  obtain ⟨h1, h2, h3⟩ := buildDefaultTree_ok d data hd hl
  refine ⟨⟨hd, h1, h2⟩, ?_⟩
  intro a ha
  rw [sem, ofFlat, h3 a ha, List.getD_eq_getElem?_getD]

theorem setValue_ok {s : TreeStore V S α} (hs : s.WF)
    {obs : Obs V S} {b : V → S} (x : α) (hb : InDom s.dom b) (hc : Covers s.dom obs b) :
    ∃ r, s.setValue x obs = .ok r ∧ r.WF ∧ r.dom = s.dom ∧
      (∀ a, (∀ v ∈ Dict.keys s.dom, a v = b v) → r.sem a = x) ∧
      (∀ a, ¬ (∀ v ∈ Dict.keys s.dom, a v = b v) → r.sem a = s.sem a) := by
  have hc' : Covers s.dom (obs.filter fun p => p.1 ∈ Dict.keys s.dom) b := by
    intro v hv
    rw [Dict.get?_filter_key obs (fun w => w ∈ Dict.keys s.dom), if_pos hv]
    exact hc v hv
  obtain ⟨r, h1, h2, h3, h4, h5⟩ := Tree.modify_ok x hs.dom.keys hb hc' hs.ok hs.full
  refine ⟨⟨s.dom, r⟩, by rw [setValue, h1]; rfl, ⟨hs.dom, h2, h3⟩, rfl, ?_, ?_⟩
  · intro a ha; rw [sem, h4 a ha]; rfl
  · intro a ha; rw [sem, h5 a ha]; rfl

end TreeStore
end Verif
