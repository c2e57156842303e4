import Verif.Store.Tree
import Verif.Store.FlatLemmas

/-!
# Laws of the tree store
-/

set_option linter.unusedSectionVars false
set_option linter.unusedSimpArgs false

namespace Verif

variable {V S α : Type} [DecidableEq V] [DecidableEq S]

mutual
/-- Value of a tree at a total assignment (`none` when a child is missing). -/
def Tree.eval (a : V → S) : Tree V S α → Option α
  | .leaf x => some x
  | .node v ch => Forest.eval a (a v) ch
def Forest.eval (a : V → S) (s : S) : Forest V S α → Option α
  | .nil => none
  | .cons s' t f => if s' = s then Tree.eval a t else Forest.eval a s f
end

mutual
/-- The tree branches only on variables of the domain, on all their states, and no
variable twice on a path. -/
def Tree.Ok : Dom V S → Tree V S α → Prop
  | _, .leaf _ => True
  | d, .node v ch => (∃ st, (v, st) ∈ d ∧ ch.keys.Perm st) ∧ Forest.Ok (d.filter fun p => p.1 ≠ v) ch
def Forest.Ok : Dom V S → Forest V S α → Prop
  | _, .nil => True
  | d, .cons _ t f => Tree.Ok d t ∧ Forest.Ok d f
end

/-- Every variable of `d` is in `D` with the same states (in some order). -/
def DSub (d D : Dom V S) : Prop := ∀ p ∈ d, ∃ q ∈ D, q.1 = p.1 ∧ p.2.Perm q.2

theorem DSub.refl (d : Dom V S) : DSub d d := fun p hp => ⟨p, hp, rfl, .refl _⟩

theorem DSub.filter {d D : Dom V S} (h : DSub d D) (v : V) :
    DSub (d.filter fun p => p.1 ≠ v) (D.filter fun p => p.1 ≠ v) := by
  intro p hp
  rw [List.mem_filter] at hp
  obtain ⟨q, hq, h1, h2⟩ := h p hp.1
  exact ⟨q, List.mem_filter.2 ⟨hq, by simpa [h1] using hp.2⟩, h1, h2⟩

theorem DSub.filter_left {d D : Dom V S} (h : DSub d D) (q : V × List S → Bool) :
    DSub (d.filter q) D := fun p hp => h p (List.mem_filter.1 hp).1

mutual
theorem Tree.Ok.mono {d D : Dom V S} (h : DSub d D) : ∀ {t : Tree V S α}, Tree.Ok d t → Tree.Ok D t
  | .leaf _, _ => by simp [Tree.Ok]
  | .node v ch, ht => by
    rw [Tree.Ok] at ht ⊢
    obtain ⟨⟨st, hst, hp⟩, hf⟩ := ht
    obtain ⟨q, hq, h1, h2⟩ := h _ hst
    refine ⟨⟨q.2, ?_, hp.trans h2⟩, Forest.Ok.mono (h.filter v) hf⟩
    have : q = (v, q.2) := Prod.ext h1 rfl
    rw [← this]; exact hq
theorem Forest.Ok.mono {d D : Dom V S} (h : DSub d D) : ∀ {t : Forest V S α}, Forest.Ok d t → Forest.Ok D t
  | .nil, _ => by simp [Forest.Ok]
  | .cons _ t f, ht => by
    rw [Forest.Ok] at ht ⊢
    exact ⟨Tree.Ok.mono h ht.1, Forest.Ok.mono h ht.2⟩
end

mutual
theorem Tree.eval_congr {a b : V → S} : ∀ {d : Dom V S} {t : Tree V S α}, Tree.Ok d t →
    (∀ v ∈ Dict.keys d, a v = b v) → Tree.eval a t = Tree.eval b t
  | _, .leaf _, _, _ => by simp [Tree.eval]
  | d, .node v ch, ht, h => by
    rw [Tree.Ok] at ht
    obtain ⟨⟨st, hst, _⟩, hf⟩ := ht
    rw [Tree.eval, Tree.eval, h v (Dict.mem_keys_of_mem hst)]
    refine Forest.eval_congr hf ?_ 
    intro w hw
    rw [Dict.keys_filter_key d (fun w => w ≠ v)] at hw
    exact h w (List.mem_filter.1 hw).1
theorem Forest.eval_congr {a b : V → S} {s : S} : ∀ {d : Dom V S} {t : Forest V S α}, Forest.Ok d t →
    (∀ v ∈ Dict.keys d, a v = b v) → Forest.eval a s t = Forest.eval b s t
  | _, .nil, _, _ => by simp [Forest.eval]
  | d, .cons s' t f, ht, h => by
    rw [Forest.Ok] at ht
    rw [Forest.eval, Forest.eval, Tree.eval_congr ht.1 h, Forest.eval_congr ht.2 h]
end

theorem Forest.eval_eq_get? (a : V → S) (s : S) : ∀ f : Forest V S α,
    Forest.eval a s f = (f.get? s).bind (Tree.eval a)
  | .nil => by simp [Forest.eval, Forest.get?]
  | .cons s' t f => by
    rw [Forest.eval, Forest.get?, Forest.eval_eq_get? a s f]
    split <;> rfl

theorem Forest.get?_isSome {s : S} : ∀ {f : Forest V S α}, (f.get? s).isSome ↔ s ∈ f.keys
  | .nil => by simp [Forest.get?, Forest.keys]
  | .cons s' t f => by
    by_cases h : s' = s
    · simp [Forest.get?, Forest.keys, h]
    · simp [Forest.get?, Forest.keys, h, Ne.symm h, Forest.get?_isSome (f := f)]

theorem Forest.Ok.get? {d : Dom V S} {s : S} {t : Tree V S α} : ∀ {f : Forest V S α}, Forest.Ok d f →
    f.get? s = some t → Tree.Ok d t
  | .nil, _, h => by simp [Forest.get?] at h
  | .cons s' t' f, hf, h => by
    rw [Forest.Ok] at hf
    rw [Forest.get?] at h
    split at h
    · cases h; exact hf.1
    · exact Forest.Ok.get? hf.2 h

mutual
theorem Tree.eval_isSome {a : V → S} : ∀ {d : Dom V S} {t : Tree V S α}, (Dict.keys d).Nodup →
    Tree.Ok d t → InDom d a → (Tree.eval a t).isSome
  | _, .leaf _, _, _, _ => by simp [Tree.eval]
  | d, .node v ch, hn, ht, ha => by
    rw [Tree.Ok] at ht
    obtain ⟨⟨st, hst, hp⟩, hf⟩ := ht
    rw [Tree.eval]
    refine Forest.eval_isSome ?_ hf (ha.sub fun p hp => (List.mem_filter.1 hp).1) ?_
    · rw [Dict.keys_filter_key d (fun w => w ≠ v)]; exact hn.filter _
    · exact hp.mem_iff.2 (ha _ hst)
theorem Forest.eval_isSome {a : V → S} {s : S} : ∀ {d : Dom V S} {f : Forest V S α},
    (Dict.keys d).Nodup → Forest.Ok d f → InDom d a → s ∈ f.keys → (Forest.eval a s f).isSome
  | _, .nil, _, _, _, h => by simp [Forest.keys] at h
  | d, .cons s' t f, hn, ht, ha, h => by
    rw [Forest.Ok] at ht
    rw [Forest.eval]
    split
    · exact Tree.eval_isSome hn ht.1 ha
    · rename_i hne
      rw [Forest.keys, List.mem_cons] at h
      exact Forest.eval_isSome hn ht.2 ha (h.resolve_left (Ne.symm hne))
end

/-! ### Restriction -/

theorem filter_not_mem_filter_ne (d : Dom V S) (obs : Obs V S) (v : V) (hv : v ∈ Dict.keys obs) :
    ((d.filter fun p => p.1 ≠ v).filter fun p => p.1 ∉ Dict.keys (obs.filter fun p => p.1 ≠ v))
      = d.filter fun p => p.1 ∉ Dict.keys obs := by
  rw [List.filter_filter]
  refine List.filter_congr fun p _ => ?_
  rw [Dict.keys_filter_key obs (fun w => w ≠ v)]
  by_cases h : p.1 = v
  · simp [h, hv]
  · simp [h]

theorem filter_comm_ne (d : Dom V S) (obs : Obs V S) (v : V) :
    ((d.filter fun p => p.1 ≠ v).filter fun p => p.1 ∉ Dict.keys obs)
      = (d.filter fun p => p.1 ∉ Dict.keys obs).filter fun p => p.1 ≠ v := by
  rw [List.filter_filter, List.filter_filter]
  refine List.filter_congr fun p _ => ?_
  rw [Bool.and_comm]

theorem nodup_filter_ne {d : Dom V S} (hn : (Dict.keys d).Nodup) (v : V) :
    (Dict.keys (d.filter fun p => p.1 ≠ v)).Nodup := by
  rw [Dict.keys_filter_key d (fun w => w ≠ v)]; exact hn.filter _

theorem ObsOk.filter {d : Dom V S} {obs : Obs V S} (h : ObsOk d obs) (q : V × List S → Bool) :
    ObsOk (d.filter q) obs := fun p hp => h p (List.mem_filter.1 hp).1

mutual
theorem Tree.restrict_ok : ∀ {d : Dom V S} {obs : Obs V S} {t : Tree V S α}, (Dict.keys d).Nodup →
    ObsOk d obs → Tree.Ok d t →
    ∃ r, Tree.restrict obs t = .ok r ∧ Tree.Ok (d.filter fun p => p.1 ∉ Dict.keys obs) r ∧
      ∀ a, Tree.eval a r = Tree.eval (over obs a) t
  | d, obs, .leaf x, _, _, _ => ⟨.leaf x, by simp [Tree.restrict], by simp [Tree.Ok], fun a => by simp [Tree.eval]⟩
  | d, obs, .node v ch, hn, ho, ht => by
    by_cases h0 : obs.length = 0
    · have : obs = [] := List.length_eq_zero_iff.1 h0
      subst this
      exact ⟨.node v ch, by simp [Tree.restrict], by simpa using ht, fun a => by simp⟩
    · have ht' := ht
      rw [Tree.Ok] at ht'
      obtain ⟨⟨st, hst, hperm⟩, hf⟩ := ht'
      rw [Tree.restrict, if_neg h0]
      rcases hg : Dict.get? obs v with _ | s
      · have hv : v ∉ Dict.keys obs := Dict.get?_eq_none.1 hg
        obtain ⟨r, h1, h2, h3, h4⟩ := Forest.restrictAll_ok (nodup_filter_ne hn v) (ho.filter _) hf
        refine ⟨.node v r, by simp [h1], ?_, ?_⟩
        · rw [Tree.Ok]
          refine ⟨⟨st, List.mem_filter.2 ⟨hst, by simpa using hv⟩, by rw [h2]; exact hperm⟩, ?_⟩
          rw [← filter_comm_ne]; exact h3
        · intro a
          rw [Tree.eval, Tree.eval, h4, over_of_not_mem hv]
      · have hv : v ∈ Dict.keys obs := Dict.get?_isSome.1 (by simp [hg])
        have hs : s ∈ ch.keys := hperm.mem_iff.2 (ho _ hst s hg)
        have ho' : ObsOk (d.filter fun p => p.1 ≠ v) (obs.filter fun p => p.1 ≠ v) := by
          intro p hp x hx
          rw [List.mem_filter] at hp
          rw [Dict.get?_filter_key obs (fun w => w ≠ v)] at hx
          split at hx
          · exact ho p hp.1 x hx
          · cases hx
        obtain ⟨r, h1, h2, h3⟩ := Forest.restrictAt_ok (nodup_filter_ne hn v) ho' hf hs
        refine ⟨r, by simpa using h1, ?_, ?_⟩
        · rw [filter_not_mem_filter_ne d obs v hv] at h2; exact h2
        · intro a
          rw [h3, Tree.eval, over_of_get? hg]
          refine Forest.eval_congr hf ?_
          intro w hw
          rw [Dict.keys_filter_key d (fun w => w ≠ v), List.mem_filter] at hw
          simp only [over]
          rw [Dict.get?_filter_key obs (fun w => w ≠ v), if_pos (by simpa using hw.2)]
theorem Forest.restrictAll_ok : ∀ {d : Dom V S} {obs : Obs V S} {t : Forest V S α}, (Dict.keys d).Nodup →
    ObsOk d obs → Forest.Ok d t →
    ∃ r, Forest.restrictAll obs t = .ok r ∧ r.keys = t.keys ∧
      Forest.Ok (d.filter fun p => p.1 ∉ Dict.keys obs) r ∧
      ∀ a s, Forest.eval a s r = Forest.eval (over obs a) s t
  | d, obs, .nil, _, _, _ => ⟨.nil, by simp [Forest.restrictAll], rfl, by simp [Forest.Ok], fun a s => by simp [Forest.eval]⟩
  | d, obs, .cons s t f, hn, ho, ht => by
    rw [Forest.Ok] at ht
    obtain ⟨r, h1, h2, h3⟩ := Tree.restrict_ok hn ho ht.1
    obtain ⟨r', k1, k2, k3, k4⟩ := Forest.restrictAll_ok hn ho ht.2
    refine ⟨.cons s r r', by simp [Forest.restrictAll, h1, k1], by simp [Forest.keys, k2], ?_, ?_⟩
    · rw [Forest.Ok]; exact ⟨h2, k3⟩
    · intro a x
      rw [Forest.eval, Forest.eval, h3, k4]
theorem Forest.restrictAt_ok : ∀ {d : Dom V S} {obs : Obs V S} {s : S} {t : Forest V S α},
    (Dict.keys d).Nodup → ObsOk d obs → Forest.Ok d t → s ∈ t.keys →
    ∃ r, Forest.restrictAt obs s t = .ok r ∧
      Tree.Ok (d.filter fun p => p.1 ∉ Dict.keys obs) r ∧
      ∀ a, Tree.eval a r = Forest.eval (over obs a) s t
  | d, obs, s, .nil, _, _, _, h => by simp [Forest.keys] at h
  | d, obs, s, .cons s' t f, hn, ho, ht, h => by
    rw [Forest.Ok] at ht
    by_cases he : s' = s
    · obtain ⟨r, h1, h2, h3⟩ := Tree.restrict_ok hn ho ht.1
      refine ⟨r, by simp [Forest.restrictAt, he, h1], h2, ?_⟩
      intro a; rw [Forest.eval, if_pos he, h3]
    · rw [Forest.keys, List.mem_cons] at h
      obtain ⟨r, h1, h2, h3⟩ := Forest.restrictAt_ok hn ho ht.2 (h.resolve_left (Ne.symm he))
      refine ⟨r, by simp [Forest.restrictAt, he, h1], h2, ?_⟩
      intro a; rw [Forest.eval, if_neg he, h3]
end

/-! ### Combination -/

mutual
theorem Tree.combLeaf_ok (op : α → α → α) (x : α) : ∀ {d : Dom V S} {t : Tree V S α}, Tree.Ok d t →
    Tree.Ok d (Tree.combLeaf op x t) ∧
      ∀ a, Tree.eval a (Tree.combLeaf op x t) = (Tree.eval a t).map (op x)
  | _, .leaf y, _ => by simp [Tree.combLeaf, Tree.Ok, Tree.eval]
  | d, .node v ch, ht => by
    rw [Tree.Ok] at ht
    obtain ⟨h1, h2, h3⟩ := Forest.combLeaf_ok op x ht.2
    rw [Tree.combLeaf, Tree.Ok, h1]
    exact ⟨⟨ht.1, h2⟩, fun a => by rw [Tree.eval, Tree.eval, h3]⟩
theorem Forest.combLeaf_ok (op : α → α → α) (x : α) : ∀ {d : Dom V S} {t : Forest V S α},
    Forest.Ok d t →
    (Forest.combLeaf op x t).keys = t.keys ∧ Forest.Ok d (Forest.combLeaf op x t) ∧
      ∀ a s, Forest.eval a s (Forest.combLeaf op x t) = (Forest.eval a s t).map (op x)
  | _, .nil, _ => by simp [Forest.combLeaf, Forest.Ok, Forest.eval]
  | d, .cons s t f, ht => by
    rw [Forest.Ok] at ht
    obtain ⟨h1, h2⟩ := Tree.combLeaf_ok op x ht.1
    obtain ⟨k1, k2, k3⟩ := Forest.combLeaf_ok op x ht.2
    rw [Forest.combLeaf, Forest.Ok]
    refine ⟨by simp [Forest.keys, k1], ⟨h1, k2⟩, ?_⟩
    intro a s'
    rw [Forest.eval, Forest.eval, h2, k3]
    split <;> rfl
end

mutual
theorem Tree.combine_ok (op : α → α → α) : ∀ {d1 d2 D : Dom V S} {t1 t2 : Tree V S α},
    (Dict.keys d2).Nodup → (Dict.keys D).Nodup → DSub d1 D → DSub d2 D →
    Tree.Ok d1 t1 → Tree.Ok d2 t2 →
    ∃ r, Tree.combine op t1 t2 = .ok r ∧ Tree.Ok D r ∧
      ∀ a, InDom D a → Tree.eval a r
        = (Tree.eval a t1).bind fun x => (Tree.eval a t2).map fun y => op x y
  | d1, d2, D, .leaf x, t2, _, _, _, s2, _, ht2 => by
    obtain ⟨h1, h2⟩ := Tree.combLeaf_ok op x ht2
    refine ⟨_, by rw [Tree.combine], h1.mono s2, ?_⟩
    intro a _; rw [h2, Tree.eval]; rfl
  | d1, d2, D, .node v ch, t2, n2, nD, s1, s2, ht1, ht2 => by
    rw [Tree.Ok] at ht1
    obtain ⟨⟨st, hst, hperm⟩, hf⟩ := ht1
    obtain ⟨q, hq, hq1, hq2⟩ := s1 _ hst
    have hq' : (v, q.2) ∈ D := by
      have : q = (v, q.2) := Prod.ext hq1 rfl
      rw [← this]; exact hq
    have hobs : ∀ s ∈ ch.keys, ObsOk d2 [(v, s)] := by
      intro s hs p hp x hx
      simp only [Dict.get?] at hx
      split at hx
      · rename_i hv
        cases hx
        obtain ⟨q', hq'', e1, e2⟩ := s2 p hp
        have g1 : Dict.get? D v = some q.2 := Dict.get?_of_mem nD hq'
        have g2 : Dict.get? D v = some q'.2 := Dict.get?_of_mem nD (by
          have : (v, q'.2) = q' := Prod.ext (by rw [e1]; exact hv) rfl
          rw [this]; exact hq'')
        rw [g1] at g2
        rw [e2.mem_iff, ← Option.some.inj g2, ← hq2.mem_iff, ← hperm.mem_iff]; exact hs
      · cases hx
    obtain ⟨r, h1, h2, h3, h4⟩ := Forest.combine_ok op v n2 nD (s1.filter v) s2 hf ht2 hobs
    refine ⟨.node v r, by rw [Tree.combine, h1]; rfl, ?_, ?_⟩
    · rw [Tree.Ok]
      exact ⟨⟨q.2, hq', by rw [h2]; exact hperm.trans hq2⟩, h3⟩
    · intro a ha
      rw [Tree.eval, Tree.eval]
      refine h4 a ha rfl ?_
      exact hperm.mem_iff.2 (hq2.mem_iff.2 (ha _ hq'))
theorem Forest.combine_ok (op : α → α → α) (v : V) : ∀ {d1 d2 D : Dom V S} {f : Forest V S α}
    {t2 : Tree V S α}, (Dict.keys d2).Nodup → (Dict.keys D).Nodup →
    DSub d1 (D.filter fun p => p.1 ≠ v) → DSub d2 D →
    Forest.Ok d1 f → Tree.Ok d2 t2 → (∀ s ∈ f.keys, ObsOk d2 [(v, s)]) →
    ∃ r, Forest.combine op v f t2 = .ok r ∧ r.keys = f.keys ∧
      Forest.Ok (D.filter fun p => p.1 ≠ v) r ∧
      ∀ a, InDom D a → ∀ {s}, a v = s → s ∈ f.keys → Forest.eval a s r
        = (Forest.eval a s f).bind fun x => (Tree.eval a t2).map fun y => op x y
  | d1, d2, D, .nil, t2, _, _, _, _, _, _, _ =>
    ⟨.nil, by rw [Forest.combine], rfl, by simp [Forest.Ok], fun a _ s _ _ => by simp [Forest.eval]⟩
  | d1, d2, D, .cons s t f, t2, n2, nD, s1, s2, ht1, ht2, hobs => by
    rw [Forest.Ok] at ht1
    obtain ⟨r2, a1, a2, a3⟩ := Tree.restrict_ok n2 (hobs s (by simp [Forest.keys])) ht2
    have hsub : DSub (d2.filter fun p => p.1 ∉ Dict.keys [(v, s)]) (D.filter fun p => p.1 ≠ v) := by
      have := s2.filter v
      simpa using this
    have n2' : (Dict.keys (d2.filter fun p => p.1 ∉ Dict.keys [(v, s)])).Nodup := by
      rw [Dict.keys_filter_key d2 (fun w => w ∉ Dict.keys [(v, s)])]; exact n2.filter _
    obtain ⟨r, b1, b2, b3⟩ := Tree.combine_ok op n2' (nodup_filter_ne nD v) s1 hsub ht1.1 a2
    obtain ⟨r', c1, c2, c3, c4⟩ := Forest.combine_ok op v n2 nD s1 s2 ht1.2 ht2
      (fun s' hs' => hobs s' (by simp [Forest.keys, hs']))
    refine ⟨.cons s r r', by rw [Forest.combine, a1, py_ok_bind, b1, py_ok_bind, c1]; rfl,
      by simp [Forest.keys, c2], by rw [Forest.Ok]; exact ⟨b2, c3⟩, ?_⟩
    intro a ha s' hs' hmem
    rw [Forest.eval, Forest.eval]
    split
    · rename_i he
      rw [b3 a (ha.sub fun p hp => (List.mem_filter.1 hp).1), a3]
      congr 1; funext x
      congr 1
      congr 1
      refine over_self_of_agree ?_
      intro w x hw
      simp only [Dict.get?] at hw
      split at hw
      · rename_i hvw
        cases hw; rw [← hvw, hs', he]
      · cases hw
    · rename_i hne
      rw [Forest.keys, List.mem_cons] at hmem
      exact c4 a ha hs' (hmem.resolve_left (Ne.symm hne))
end

/-! ### Marginalisation -/

/-- `reduce(op, l)` on a non-empty list. -/
def red [Inhabited α] (op : α → α → α) : List α → α
  | [] => default
  | x :: xs => xs.foldl op x

theorem Forest.values_ok {d : Dom V S} : ∀ {f : Forest V S α}, Forest.Ok d f →
    ∀ t ∈ f.values, Tree.Ok d t
  | .nil, _, t, ht => by simp [Forest.values] at ht
  | .cons s t' f, hf, t, ht => by
    rw [Forest.Ok] at hf
    rw [Forest.values, List.mem_cons] at ht
    rcases ht with rfl | ht
    · exact hf.1
    · exact Forest.values_ok hf.2 t ht

theorem Forest.eval_values (a : V → S) : ∀ {f : Forest V S α}, f.keys.Nodup →
    f.values.map (Tree.eval a) = f.keys.map fun s => Forest.eval a s f
  | .nil, _ => by simp [Forest.values, Forest.keys]
  | .cons s t f, hn => by
    rw [Forest.keys, List.nodup_cons] at hn
    rw [Forest.values, Forest.keys, List.map_cons, List.map_cons, Forest.eval, if_pos rfl,
      Forest.eval_values a hn.2]
    congr 1
    refine List.map_congr_left fun s' hs' => ?_
    rw [Forest.eval, if_neg]
    rintro rfl; exact hn.1 hs'

theorem foldlM_combine_ok (op : α → α → α) {d : Dom V S} (hn : (Dict.keys d).Nodup) :
    ∀ (ts : List (Tree V S α)), (∀ t ∈ ts, Tree.Ok d t) → ∀ acc : Tree V S α, Tree.Ok d acc →
    ∃ r, ts.foldlM (Tree.combine op) acc = .ok r ∧ Tree.Ok d r ∧
      ∀ a, InDom d a → ∀ (x : α) (xs : List α), Tree.eval a acc = some x → ts.map (Tree.eval a) = xs.map some →
        Tree.eval a r = some (xs.foldl op x) := by
  intro ts
  induction ts with
  | nil =>
    intro _ acc hacc
    refine ⟨acc, rfl, hacc, ?_⟩
    intro a _ x xs hx hxs
    have : xs = [] := by simpa using hxs.symm
    subst this; exact hx
  | cons t ts ih =>
    intro hts acc hacc
    obtain ⟨c, c1, c2, c3⟩ := Tree.combine_ok op hn hn (DSub.refl d) (DSub.refl d) hacc
      (hts t List.mem_cons_self)
    obtain ⟨r, r1, r2, r3⟩ := ih (fun t ht => hts t (List.mem_cons_of_mem _ ht)) c c2
    refine ⟨r, by rw [List.foldlM_cons, c1]; exact r1, r2, ?_⟩
    intro a ha x xs hx hxs
    cases xs with
    | nil => simp at hxs
    | cons y ys =>
      rw [List.map_cons, List.map_cons, List.cons.injEq] at hxs
      rw [List.foldl_cons]
      refine r3 a ha _ _ ?_ hxs.2
      rw [c3 a ha, hx, hxs.1]; rfl

theorem red_perm [Inhabited α] {op : α → α → α} [Std.Commutative op] [Std.Associative op]
    {l l' : List α} (h : l.Perm l') : red op l = red op l' := by
  have key : ∀ {l l' : List α}, l.Perm l' → ∀ x, l.foldl op x = l'.foldl op x := by
    intro l l' h x
    have : RightCommutative op := ⟨fun a b c => by
      rw [Std.Associative.assoc (op := op), Std.Commutative.comm (op := op) b c,
        ← Std.Associative.assoc (op := op)]⟩
    exact h.foldl_eq x
  induction h with
  | nil => rfl
  | cons x h _ => exact key h x
  | swap x y l => simp [red, Std.Commutative.comm (op := op) x y]
  | trans _ _ ih1 ih2 => exact ih1.trans ih2

mutual
theorem Tree.marg_ok [Inhabited α] {op : α → α → α} [Std.Commutative op] [Std.Associative op]
    {scale : α → α} {v : V} {st : List S} (hst0 : st ≠ [])
    (hsc : ∀ x, scale x = red op (st.map fun _ => x)) :
    ∀ {d : Dom V S} {t : Tree V S α}, DomOk d → (v, st) ∈ d → Tree.Ok d t →
    ∃ r, Tree.marg op scale v t = .ok r ∧ Tree.Ok (d.filter fun p => p.1 ≠ v) r ∧
      ∀ a, InDom (d.filter fun p => p.1 ≠ v) a →
        ∃ xs, st.map (fun s => Tree.eval (upd a v s) t) = xs.map some ∧
          Tree.eval a r = some (red op xs)
  | d, .leaf x, _, _, _ => by
    refine ⟨.leaf (scale x), by rw [Tree.marg], by simp [Tree.Ok], ?_⟩
    intro a _
    refine ⟨st.map fun _ => x, ?_, ?_⟩
    · simp [Tree.eval]
    · rw [Tree.eval, hsc]
  | d, .node w ch, hd, hv, ht => by
    rw [Tree.Ok] at ht
    obtain ⟨⟨st', hst', hperm⟩, hf⟩ := ht
    by_cases hw : w = v
    · subst hw
      have e1 : Dict.get? d w = some st := Dict.get?_of_mem hd.keys hv
      have e2 : Dict.get? d w = some st' := Dict.get?_of_mem hd.keys hst'
      rw [e1] at e2
      have est : st = st' := Option.some.inj e2
      subst est
      have hkn : ch.keys.Nodup := hperm.nodup_iff.2 (hd.states _ hv)
      cases hvals : ch.values with
      | nil =>
        exfalso
        have : ch.keys = [] := by
          cases ch with
          | nil => rfl
          | cons _ _ _ => simp [Forest.values] at hvals
        rw [this] at hperm
        exact hst0 hperm.nil_eq.symm
      | cons t0 ts =>
        have hok := Forest.values_ok hf
        rw [hvals] at hok
        have hn' := nodup_filter_ne hd.keys w
        obtain ⟨r, r1, r2, r3⟩ := foldlM_combine_ok op hn' ts
          (fun t ht => hok t (List.mem_cons_of_mem _ ht)) t0 (hok t0 List.mem_cons_self)
        refine ⟨r, ?_, r2, ?_⟩
        · rw [Tree.marg, if_pos rfl, hvals]; exact r1
        · intro a ha
          -- values of the children at a
          have hx : ∀ t ∈ ch.values, ∃ x, Tree.eval a t = some x := fun t ht =>
            Option.isSome_iff_exists.1 (Tree.eval_isSome hn' (Forest.values_ok hf t ht) ha)
          obtain ⟨xs, hxs⟩ : ∃ xs : List α, ch.values.map (Tree.eval a) = xs.map some := by
            refine ⟨ch.values.map fun t => (Tree.eval a t).getD default, ?_⟩
            rw [List.map_map]
            refine List.map_congr_left fun t ht => ?_
            obtain ⟨x, hx⟩ := hx t ht
            simp [hx]
          have hev := Forest.eval_values a hkn
          have hst : ∀ s, Tree.eval (upd a w s) (Tree.node w ch) = Forest.eval a s ch := by
            intro s
            rw [Tree.eval, upd_same]
            refine Forest.eval_congr hf ?_
            intro u hu
            rw [Dict.keys_filter_key d (fun u => u ≠ w), List.mem_filter] at hu
            exact upd_ne _ _ (by simpa using hu.2)
          have hp2 : (ch.keys.map fun s => Forest.eval a s ch).Perm (st.map fun s => Forest.eval a s ch) :=
            hperm.map _
          rw [← hev, hxs] at hp2
          -- a list of the states' values in domain order
          obtain ⟨ys, hys⟩ : ∃ ys : List α, (st.map fun s => Forest.eval a s ch) = ys.map some := by
            refine ⟨st.map fun s => (Forest.eval a s ch).getD default, ?_⟩
            rw [List.map_map]
            refine List.map_congr_left fun s hs => ?_
            have := Forest.eval_isSome hn' hf ha (hperm.mem_iff.2 hs)
            obtain ⟨x, hx⟩ := Option.isSome_iff_exists.1 this
            simp [hx]
          refine ⟨ys, by rw [← hys]; exact List.map_congr_left fun s _ => hst s, ?_⟩
          rw [hys] at hp2
          have hp3 : xs.Perm ys := (List.map_perm_map_iff (Option.some_injective α)).1 hp2
          rw [← red_perm hp3]
          rw [hvals] at hxs
          cases xs with
          | nil => simp at hxs
          | cons x xs =>
            rw [List.map_cons, List.map_cons, List.cons.injEq] at hxs
            exact r3 a ha x xs hxs.1 hxs.2
    · have hd' : DomOk (d.filter fun p => p.1 ≠ w) := hd.filter (fun u => u ≠ w)
      have hv' : (v, st) ∈ d.filter fun p => p.1 ≠ w :=
        List.mem_filter.2 ⟨hv, by simpa using Ne.symm hw⟩
      obtain ⟨r, r1, r2, r3, r4⟩ := Forest.marg_ok hst0 hsc hd' hv' hf
      refine ⟨.node w r, by rw [Tree.marg, if_neg hw, r1]; rfl, ?_, ?_⟩
      · rw [Tree.Ok]
        refine ⟨⟨st', List.mem_filter.2 ⟨hst', by simpa using hw⟩, by rw [r2]; exact hperm⟩, ?_⟩
        have : ((d.filter fun p => p.1 ≠ v).filter fun p => p.1 ≠ w)
            = ((d.filter fun p => p.1 ≠ w).filter fun p => p.1 ≠ v) := by
          rw [List.filter_filter, List.filter_filter]
          exact List.filter_congr fun p _ => Bool.and_comm _ _
        rw [this]; exact r3
      · intro a ha
        have haw : a w ∈ ch.keys := hperm.mem_iff.2 (ha (w, st')
          (List.mem_filter.2 ⟨hst', by simpa using hw⟩))
        have ha' : InDom ((d.filter fun p => p.1 ≠ w).filter fun p => p.1 ≠ v) a := by
          intro p hp
          rw [List.mem_filter, List.mem_filter] at hp
          exact ha p (List.mem_filter.2 ⟨hp.1.1, hp.2⟩)
        obtain ⟨xs, x1, x2⟩ := r4 a ha' (a w) haw
        refine ⟨xs, ?_, by rw [Tree.eval]; exact x2⟩
        rw [← x1]
        refine List.map_congr_left fun s _ => ?_
        rw [Tree.eval, upd_ne _ _ hw]
theorem Forest.marg_ok [Inhabited α] {op : α → α → α} [Std.Commutative op] [Std.Associative op]
    {scale : α → α} {v : V} {st : List S} (hst0 : st ≠ [])
    (hsc : ∀ x, scale x = red op (st.map fun _ => x)) :
    ∀ {d : Dom V S} {f : Forest V S α}, DomOk d → (v, st) ∈ d → Forest.Ok d f →
    ∃ r, Forest.marg op scale v f = .ok r ∧ r.keys = f.keys ∧
      Forest.Ok (d.filter fun p => p.1 ≠ v) r ∧
      ∀ a, InDom (d.filter fun p => p.1 ≠ v) a → ∀ s ∈ f.keys,
        ∃ xs, st.map (fun x => Forest.eval (upd a v x) s f) = xs.map some ∧
          Forest.eval a s r = some (red op xs)
  | d, .nil, _, _, _ =>
    ⟨.nil, by rw [Forest.marg], rfl, by simp [Forest.Ok], fun a _ s hs => by simp [Forest.keys] at hs⟩
  | d, .cons s t f, hd, hv, ht => by
    rw [Forest.Ok] at ht
    obtain ⟨r, h1, h2, h3⟩ := Tree.marg_ok hst0 hsc hd hv ht.1
    obtain ⟨r', k1, k2, k3, k4⟩ := Forest.marg_ok hst0 hsc hd hv ht.2
    refine ⟨.cons s r r', by rw [Forest.marg, h1, py_ok_bind, k1]; rfl, by simp [Forest.keys, k2],
      by rw [Forest.Ok]; exact ⟨h2, k3⟩, ?_⟩
    intro a ha s' hs'
    by_cases he : s = s'
    · obtain ⟨xs, x1, x2⟩ := h3 a ha
      refine ⟨xs, ?_, by rw [Forest.eval, if_pos he]; exact x2⟩
      rw [← x1]
      exact List.map_congr_left fun x _ => by rw [Forest.eval, if_pos he]
    · rw [Forest.keys, List.mem_cons] at hs'
      obtain ⟨xs, x1, x2⟩ := k4 a ha s' (hs'.resolve_left (Ne.symm he))
      refine ⟨xs, ?_, by rw [Forest.eval, if_neg he]; exact x2⟩
      rw [← x1]
      exact List.map_congr_left fun x _ => by rw [Forest.eval, if_neg he]
end

end Verif
