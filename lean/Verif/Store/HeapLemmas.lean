import Verif.Store.Heap
import Mathlib.Data.List.Nodup

/-!
# The tree functions on a heap do what they do on trees

`TreeHeap.Reads h r t A`: the value `r` in the heap `h` is the tree `t`, and its nodes are at the
addresses `A`.
-/

set_option linter.unusedSectionVars false
set_option linter.unusedSimpArgs false

namespace Verif

variable {V S α : Type} [DecidableEq V] [DecidableEq S]

mutual
/-- depth of a tree -/
def Tree.height : Tree V S α → Nat
  | .leaf _ => 0
  | .node _ f => f.height + 1
def Forest.height : Forest V S α → Nat
  | .nil => 0
  | .cons _ t f => max t.height f.height
end

/-- The loop over the children. -/
def Forest.mapPy (g : Tree V S α → Py (Tree V S α)) : Forest V S α → Py (Forest V S α)
  | .nil => .ok .nil
  | .cons s t f => do
      let t' ← g t
      let f' ← Forest.mapPy g f
      return .cons s t' f'

theorem Forest.restrictAll_eq (obs : Obs V S) : ∀ f : Forest V S α,
    Forest.restrictAll obs f = f.mapPy (Tree.restrict obs)
  | .nil => by rw [Forest.restrictAll, Forest.mapPy]
  | .cons s t f => by rw [Forest.restrictAll, Forest.mapPy, Forest.restrictAll_eq obs f]

theorem Forest.modifyAll_eq (obs : Obs V S) (x : α) : ∀ f : Forest V S α,
    Forest.modifyAll obs x f = f.mapPy (Tree.modify obs x)
  | .nil => by rw [Forest.modifyAll, Forest.mapPy]
  | .cons s t f => by rw [Forest.modifyAll, Forest.mapPy, Forest.modifyAll_eq obs x f]

theorem Forest.mapPy_ok : ∀ f : Forest V S α, f.mapPy (fun t => .ok t) = .ok f
  | .nil => by rw [Forest.mapPy]
  | .cons s t f => by rw [Forest.mapPy, Forest.mapPy_ok f]; rfl

theorem Forest.restrictAt_eq (obs : Obs V S) (s : S) : ∀ f : Forest V S α,
    Forest.restrictAt obs s f = match f.get? s with
      | none => .error .keyError
      | some t => t.restrict obs
  | .nil => by rw [Forest.restrictAt, Forest.get?]
  | .cons s' t f => by
    rw [Forest.restrictAt, Forest.get?]
    by_cases h : s' = s
    · rw [if_pos h, if_pos h]
    · rw [if_neg h, if_neg h, Forest.restrictAt_eq obs s f]

/-- `children[s] = t` for a key that is there -/
def Forest.put (s : S) (t : Tree V S α) : Forest V S α → Forest V S α
  | .nil => .nil
  | .cons s' t' f => if s' = s then .cons s' t f else .cons s' t' (Forest.put s t f)

theorem Forest.modifyAt_eq (obs : Obs V S) (x : α) (s : S) : ∀ f : Forest V S α,
    Forest.modifyAt obs x s f = match f.get? s with
      | none => .error .keyError
      | some t => (do let t' ← t.modify obs x; return f.put s t')
  | .nil => by rw [Forest.modifyAt, Forest.get?]
  | .cons s' t f => by
    rw [Forest.modifyAt, Forest.get?]
    by_cases h : s' = s
    · rw [if_pos h, if_pos h]; simp only [Forest.put, if_pos h]
    · rw [if_neg h, if_neg h, Forest.modifyAt_eq obs x s f]
      rcases f.get? s with _ | t'
      · rfl
      · simp only [Forest.put, if_neg h]
        rcases Tree.modify obs x t' with e | w <;> rfl

theorem Forest.height_get? {s : S} {t : Tree V S α} : ∀ {f : Forest V S α}, f.get? s = some t →
    t.height ≤ f.height
  | .nil, h => by simp [Forest.get?] at h
  | .cons s' t' f, h => by
    rw [Forest.get?] at h
    rw [Forest.height]
    split at h
    · cases h; exact le_max_left _ _
    · exact (Forest.height_get? h).trans (le_max_right _ _)

namespace TreeHeap

mutual
/-- `r` is the tree `t`, its nodes are at `A` -/
def Reads (h : TreeHeap V S α) : Ref α → Tree V S α → List Nat → Prop
  | r, .leaf x, A => r = .val x ∧ A = []
  | r, .node v f, A => ∃ a ch B, r = .ptr a ∧ h[a]? = some (v, ch) ∧ ReadsF h ch f B ∧ A = a :: B
def ReadsF (h : TreeHeap V S α) : List (S × Ref α) → Forest V S α → List Nat → Prop
  | ch, .nil, B => ch = [] ∧ B = []
  | ch, .cons s t f, B => ∃ r ch' A B', ch = (s, r) :: ch' ∧ Reads h r t A ∧ ReadsF h ch' f B' ∧
      B = A ++ B'
end

mutual
theorem Reads.frame {h h' : TreeHeap V S α} : ∀ {t : Tree V S α} {r : Ref α} {A : List Nat},
    Reads h r t A → (∀ a ∈ A, h'[a]? = h[a]?) → Reads h' r t A
  | .leaf x, r, A, hr, _ => by rw [Reads] at hr ⊢; exact hr
  | .node v f, r, A, hr, hA => by
    rw [Reads] at hr ⊢
    obtain ⟨a, ch, B, h1, h2, h3, h4⟩ := hr
    subst h4
    exact ⟨a, ch, B, h1, by rw [hA a (by simp), h2],
      ReadsF.frame h3 fun b hb => hA b (List.mem_cons_of_mem _ hb), rfl⟩
theorem ReadsF.frame {h h' : TreeHeap V S α} : ∀ {f : Forest V S α} {ch : List (S × Ref α)}
    {B : List Nat}, ReadsF h ch f B → (∀ a ∈ B, h'[a]? = h[a]?) → ReadsF h' ch f B
  | .nil, ch, B, hr, _ => by rw [ReadsF] at hr ⊢; exact hr
  | .cons s t f, ch, B, hr, hB => by
    rw [ReadsF] at hr ⊢
    obtain ⟨r, ch', A, B', h1, h2, h3, h4⟩ := hr
    subst h4
    exact ⟨r, ch', A, B', h1, h2.frame fun a ha => hB a (List.mem_append_left _ ha),
      h3.frame fun a ha => hB a (List.mem_append_right _ ha), rfl⟩
end

mutual
theorem Reads.bound {h : TreeHeap V S α} : ∀ {t : Tree V S α} {r : Ref α} {A : List Nat},
    Reads h r t A → ∀ a ∈ A, a < h.length
  | .leaf x, r, A, hr => by rw [Reads] at hr; simp [hr.2]
  | .node v f, r, A, hr => by
    rw [Reads] at hr
    obtain ⟨a, ch, B, h1, h2, h3, rfl⟩ := hr
    intro b hb
    rcases List.mem_cons.1 hb with rfl | hb
    · by_contra hc
      rw [List.getElem?_eq_none (by omega)] at h2; cases h2
    · exact h3.bound b hb
theorem ReadsF.bound {h : TreeHeap V S α} : ∀ {f : Forest V S α} {ch : List (S × Ref α)}
    {B : List Nat}, ReadsF h ch f B → ∀ a ∈ B, a < h.length
  | .nil, ch, B, hr => by rw [ReadsF] at hr; simp [hr.2]
  | .cons s t f, ch, B, hr => by
    rw [ReadsF] at hr
    obtain ⟨r, ch', A, B', h1, h2, h3, rfl⟩ := hr
    intro b hb
    rcases List.mem_append.1 hb with hb | hb
    · exact h2.bound b hb
    · exact h3.bound b hb
end

/-- A node with the child found for `s`. -/
theorem ReadsF.get? {h : TreeHeap V S α} {s : S} : ∀ {f : Forest V S α} {ch : List (S × Ref α)}
    {B : List Nat}, ReadsF h ch f B →
    (f.get? s = none ∧ Dict.get? ch s = none) ∨
      ∃ t r A, f.get? s = some t ∧ Dict.get? ch s = some r ∧ Reads h r t A ∧ A.Sublist B
  | .nil, ch, B, hr => by
    rw [ReadsF] at hr
    exact Or.inl ⟨by rw [Forest.get?], by rw [hr.1]; rfl⟩
  | .cons s' t f, ch, B, hr => by
    rw [ReadsF] at hr
    obtain ⟨r, ch', A, B', rfl, h2, h3, rfl⟩ := hr
    by_cases he : s' = s
    · exact Or.inr ⟨t, r, A, by rw [Forest.get?, if_pos he], by simp [Dict.get?, he], h2,
        List.sublist_append_left _ _⟩
    · rcases h3.get? (s := s) with ⟨g1, g2⟩ | ⟨t', r', A', g1, g2, g3, g4⟩
      · exact Or.inl ⟨by rw [Forest.get?, if_neg he, g1], by simpa [Dict.get?, he] using g2⟩
      · exact Or.inr ⟨t', r', A', by rw [Forest.get?, if_neg he, g1],
          by simpa [Dict.get?, he] using g2, g3, g4.trans (List.sublist_append_right _ _)⟩

mutual
theorem reads_addr {h : TreeHeap V S α} : ∀ {t : Tree V S α} {r : Ref α} {A A' : List Nat},
    Reads h r t A → Reads h r t A' → A = A'
  | .leaf x, r, A, A', hr, hr' => by rw [Reads] at hr hr'; rw [hr.2, hr'.2]
  | .node v f, r, A, A', hr, hr' => by
    rw [Reads] at hr hr'
    obtain ⟨a, ch, B, rfl, h2, h3, rfl⟩ := hr
    obtain ⟨a', ch', B', e, k2, k3, rfl⟩ := hr'
    cases e
    rw [h2] at k2
    cases k2
    rw [readsF_addr h3 k3]
theorem readsF_addr {h : TreeHeap V S α} : ∀ {f : Forest V S α} {ch : List (S × Ref α)}
    {B B' : List Nat}, ReadsF h ch f B → ReadsF h ch f B' → B = B'
  | .nil, ch, B, B', hr, hr' => by rw [ReadsF] at hr hr'; rw [hr.2, hr'.2]
  | .cons s t f, ch, B, B', hr, hr' => by
    rw [ReadsF] at hr hr'
    obtain ⟨r, ch1, A, B1, rfl, h2, h3, rfl⟩ := hr
    obtain ⟨r', ch1', A', B1', e, k2, k3, rfl⟩ := hr'
    cases e
    rw [reads_addr h2 k2, readsF_addr h3 k3]
end

/-- What a tree function may do: nodes outside `A` (all old nodes, if `w` is false) stay, and the
result uses nodes of `A` (none of them, if `c` is false) and new ones, each once. -/
def Frame (w : Prop) (A : List Nat) (h h' : TreeHeap V S α) : Prop :=
  h.length ≤ h'.length ∧ ∀ a, a < h.length → (w → a ∉ A) → h'[a]? = h[a]?

/-- Result and tree agree. -/
def Agrees {β γ : Type} (x : Py (TreeHeap V S α × β)) (y : Py γ)
    (post : TreeHeap V S α → β → γ → Prop) : Prop :=
  match x, y with
  | .ok p, .ok t => post p.1 p.2 t
  | .error e, .error e' => e = e'
  | _, _ => False

/-- what is promised for a value -/
def Post (w c : Prop) (h : TreeHeap V S α) (A : List Nat) (h' : TreeHeap V S α) (r : Ref α)
    (t : Tree V S α) : Prop :=
  Frame w A h h' ∧ ∃ A', Reads h' r t A' ∧ A'.Nodup ∧ ∀ a ∈ A', (c ∧ a ∈ A) ∨ h.length ≤ a

/-- what is promised for the children of a node -/
def PostF (w c : Prop) (h : TreeHeap V S α) (A : List Nat) (h' : TreeHeap V S α)
    (ch : List (S × Ref α)) (f : Forest V S α) : Prop :=
  Frame w A h h' ∧ ∃ A', ReadsF h' ch f A' ∧ A'.Nodup ∧ ∀ a ∈ A', (c ∧ a ∈ A) ∨ h.length ≤ a

theorem children_agrees {w c : Prop} {f : TreeHeap V S α → Ref α → Py (TreeHeap V S α × Ref α)}
    {g : Tree V S α → Py (Tree V S α)} {n : Nat}
    (hf : ∀ {h r t A}, Reads h r t A → A.Nodup → t.height ≤ n → Agrees (f h r) (g t) (Post w c h A)) :
    ∀ {F : Forest V S α} {h : TreeHeap V S α} {ch : List (S × Ref α)} {B : List Nat},
      ReadsF h ch F B → B.Nodup → F.height ≤ n →
      Agrees (children f h ch) (F.mapPy g) (PostF w c h B)
  | .nil, h, ch, B, hr, _, _ => by
    rw [ReadsF] at hr
    obtain ⟨rfl, rfl⟩ := hr
    rw [children, Forest.mapPy]
    exact ⟨⟨le_refl _, fun a _ _ => rfl⟩, [], by rw [ReadsF]; exact ⟨rfl, rfl⟩, by simp, by simp⟩
  | .cons s t F, h, ch, B, hr, hB, hn => by
    rw [ReadsF] at hr
    obtain ⟨r, ch', A, B', rfl, h2, h3, rfl⟩ := hr
    rw [Forest.height, max_le_iff] at hn
    obtain ⟨hA, hB', hdis⟩ := List.nodup_append.1 hB
    have hdis' : ∀ a ∈ A, a ∉ B' := fun a ha hb => hdis a ha a hb rfl
    have h1 := hf h2 hA hn.1
    rw [children, Forest.mapPy]
    rcases hx : f h r with e | ⟨h1', r1⟩ <;> rcases hy : g t with e' | t' <;>
      rw [hx, hy] at h1 <;> simp only [Agrees] at h1
    · rw [h1]; rfl
    · obtain ⟨⟨hl, hfr⟩, A1, k1, k2, k3⟩ := h1
      have h3' : ReadsF h1' ch' F B' := h3.frame fun a ha =>
        hfr a (h3.bound a ha) fun _ haA => hdis' a haA ha
      have h4 := children_agrees hf h3' hB' hn.2
      simp only [py_ok_bind]
      rcases hx' : children f h1' ch' with e | ⟨h2', ch2⟩ <;> rcases hy' : F.mapPy g with e' | F' <;>
        rw [hx', hy'] at h4 <;> simp only [Agrees] at h4
      · rw [h4]; rfl
      · obtain ⟨⟨hl', hfr'⟩, B1, l1, l2, l3⟩ := h4
        have hb := h2.bound
        have hb' := h3.bound
        have hk1 := k1.bound
        refine ⟨⟨hl.trans hl', fun a ha hw => ?_⟩, A1 ++ B1, ?_, ?_, ?_⟩
        · rw [hfr' a (by omega) fun w' hb => hw w' (List.mem_append_right _ hb),
            hfr a ha fun w' hb => hw w' (List.mem_append_left _ hb)]
        · rw [ReadsF]
          refine ⟨r1, ch2, A1, B1, rfl, k1.frame fun a ha => hfr' a (hk1 a ha) fun _ hab => ?_, l1, rfl⟩
          rcases k3 a ha with h | h
          · exact hdis' a h.2 hab
          · have := hb' a hab; omega
        · refine List.nodup_append.2 ⟨k2, l2, ?_⟩
          rintro a ha b hb2 rfl
          rcases l3 a hb2 with h | h
          · rcases k3 a ha with h' | h'
            · exact hdis' a h'.2 h.2
            · have := hb' a h.2; omega
          · have := hk1 a ha; omega
        · intro a ha
          rcases List.mem_append.1 ha with ha | ha
          · rcases k3 a ha with h | h
            · exact Or.inl ⟨h.1, List.mem_append_left _ h.2⟩
            · exact Or.inr h
          · rcases l3 a ha with h | h
            · exact Or.inl ⟨h.1, List.mem_append_right _ h.2⟩
            · exact Or.inr (hl.trans h)

/-- A new node for the children. -/
theorem post_node {w c : Prop} {h : TreeHeap V S α} {A : List Nat} {h' : TreeHeap V S α}
    {ch : List (S × Ref α)} {f : Forest V S α} (v : V) (hp : PostF w c h A h' ch f) :
    Post w c h A (h' ++ [(v, ch)]) (.ptr h'.length) (.node v f) := by
  obtain ⟨⟨hl, hfr⟩, B, h1, h2, h3⟩ := hp
  have hb := h1.bound
  refine ⟨⟨by simp; omega, fun a ha hw => ?_⟩, h'.length :: B, ?_, ?_, ?_⟩
  · rw [List.getElem?_append_left (by omega), hfr a ha hw]
  · rw [Reads]
    refine ⟨h'.length, ch, B, rfl, by simp, h1.frame fun a ha => ?_, rfl⟩
    rw [List.getElem?_append_left (hb a ha)]
  · refine List.nodup_cons.2 ⟨fun hc => ?_, h2⟩
    have := hb _ hc; omega
  · intro a ha
    rcases List.mem_cons.1 ha with rfl | ha
    · exact Or.inr hl
    · exact h3 a ha

theorem Post.mono {w c : Prop} {h : TreeHeap V S α} {A B : List Nat} {h' : TreeHeap V S α}
    {r : Ref α} {t : Tree V S α} (hp : Post w c h A h' r t) (hs : ∀ a ∈ A, a ∈ B) :
    Post w c h B h' r t := by
  obtain ⟨⟨hl, hfr⟩, A', h1, h2, h3⟩ := hp
  exact ⟨⟨hl, fun a ha hw => hfr a ha fun x hx => hw x (hs a hx)⟩, A', h1, h2, fun a ha =>
    (h3 a ha).imp (fun h => ⟨h.1, hs a h.2⟩) id⟩

theorem Agrees.imp {β γ : Type} {x : Py (TreeHeap V S α × β)} {y : Py γ}
    {p q : TreeHeap V S α → β → γ → Prop} (h : Agrees x y p) (hpq : ∀ a b c, p a b c → q a b c) :
    Agrees x y q := by
  rcases x with e | x <;> rcases y with e' | y <;> simp only [Agrees] at h ⊢
  · exact h
  · exact hpq _ _ _ h

/-- `_restrict_dict` on the heap. -/
theorem restrict_agrees : ∀ (n : Nat) {obs : Obs V S} {h : TreeHeap V S α} {r : Ref α}
    {t : Tree V S α} {A : List Nat}, Reads h r t A → A.Nodup → t.height ≤ n →
    Agrees (restrict n obs h r) (t.restrict obs) (Post False True h A)
  | n, obs, h, r, .leaf x, A, hr, _, _ => by
    rw [Reads] at hr
    obtain ⟨rfl, rfl⟩ := hr
    have : restrict n obs h (.val x) = .ok (h, .val x) := by cases n <;> rfl
    rw [this, Tree.restrict]
    exact ⟨⟨le_refl _, fun a _ _ => rfl⟩, [], by rw [Reads]; exact ⟨rfl, rfl⟩, by simp, by simp⟩
  | 0, obs, h, r, .node v f, A, hr, _, hn => by simp [Tree.height] at hn
  | n + 1, obs, h, r, .node v f, A, hr, hA, hn => by
    have hr0 := hr
    rw [Reads] at hr
    obtain ⟨a, ch, B, rfl, h2, h3, rfl⟩ := hr
    have hnf : f.height ≤ n := by rw [Tree.height] at hn; omega
    have hB := (List.nodup_cons.1 hA).2
    rw [restrict, Tree.restrict, h2]
    by_cases ho : obs.length = 0
    · simp only [ho, if_true]
      exact ⟨⟨le_refl _, fun a _ _ => rfl⟩, a :: B, hr0, hA, fun b hb => Or.inl ⟨trivial, hb⟩⟩
    simp only [ho, if_false]
    rcases hg : Dict.get? obs v with _ | s
    · have hc := children_agrees (fun hr hA hn => restrict_agrees n (obs := obs) hr hA hn) h3 hB hnf
      rw [← Forest.restrictAll_eq] at hc
      simp only
      rcases hx : children (restrict n obs) h ch with e | ⟨h1, ch1⟩ <;>
        rcases hy : Forest.restrictAll obs f with e' | f' <;> rw [hx, hy] at hc <;>
        simp only [Agrees] at hc
      · rw [hc]; rfl
      · exact (post_node v hc).mono fun b hb => List.mem_cons_of_mem _ hb
    · simp only
      rw [Forest.restrictAt_eq]
      rcases h3.get? (s := s) with ⟨g1, g2⟩ | ⟨t', r', A', g1, g2, g3, g4⟩
      · rw [g1, g2]; simp only [Agrees]
      · rw [g1, g2]
        exact (restrict_agrees n g3 (hB.sublist g4) ((Forest.height_get? g1).trans hnf)).imp
          fun _ _ _ hp => hp.mono fun b hb => List.mem_cons_of_mem _ (g4.subset hb)

/-- `copy.deepcopy` on the heap: all nodes of the copy are new. -/
theorem deepcopy_agrees : ∀ (n : Nat) {h : TreeHeap V S α} {r : Ref α}
    {t : Tree V S α} {A : List Nat}, Reads h r t A → A.Nodup → t.height ≤ n →
    Agrees (deepcopy n h r) (.ok t : Py (Tree V S α)) (Post False False h A)
  | n, h, r, .leaf x, A, hr, _, _ => by
    rw [Reads] at hr
    obtain ⟨rfl, rfl⟩ := hr
    have : deepcopy n h (.val x) = .ok (h, .val x) := by cases n <;> rfl
    rw [this]
    exact ⟨⟨le_refl _, fun a _ _ => rfl⟩, [], by rw [Reads]; exact ⟨rfl, rfl⟩, by simp, by simp⟩
  | 0, h, r, .node v f, A, hr, _, hn => by simp [Tree.height] at hn
  | n + 1, h, r, .node v f, A, hr, hA, hn => by
    rw [Reads] at hr
    obtain ⟨a, ch, B, rfl, h2, h3, rfl⟩ := hr
    have hnf : f.height ≤ n := by rw [Tree.height] at hn; omega
    have hB := (List.nodup_cons.1 hA).2
    rw [deepcopy, h2]
    have hc := children_agrees (fun hr hA hn => deepcopy_agrees n hr hA hn) h3 hB hnf
    rw [Forest.mapPy_ok] at hc
    simp only
    rcases hx : children (deepcopy n) h ch with e | ⟨h1, ch1⟩ <;> rw [hx] at hc <;>
        simp only [Agrees] at hc
    exact (post_node v hc).mono fun b hb => List.mem_cons_of_mem _ hb

/-- One child replaced, the others as they were. -/
theorem ReadsF.put {h h' : TreeHeap V S α} {s : S} {t' : Tree V S α} {r' : Ref α} {A' : List Nat}
    (hr' : Reads h' r' t' A') (hA' : A'.Nodup) {m : Nat} :
    ∀ {f : Forest V S α} {ch : List (S × Ref α)} {B : List Nat} {t : Tree V S α} {A : List Nat}
      {r : Ref α}, ReadsF h ch f B → B.Nodup → f.get? s = some t → Dict.get? ch s = some r →
      Reads h r t A → (∀ a ∈ B, a < m) → (∀ a ∈ A', a ∈ A ∨ m ≤ a) →
      (∀ a ∈ B, a ∉ A → h'[a]? = h[a]?) →
      ∃ B', ReadsF h' (setChild s r' ch) (f.put s t') B' ∧ B'.Nodup ∧
        ∀ a ∈ B', a ∈ B ∨ m ≤ a
  | .nil, ch, B, t, A, r, hr, hB, hf, _, _, _, _, _ => by simp [Forest.get?] at hf
  | .cons s0 t0 f, ch, B, t, A, r, hr, hB, hf, hch, hra, hm, hA, hfr => by
    rw [ReadsF] at hr
    obtain ⟨r0, ch', A0, B', rfl, h2, h3, rfl⟩ := hr
    obtain ⟨hA0, hB', hdis⟩ := List.nodup_append.1 hB
    have hdis' : ∀ a ∈ A0, a ∉ B' := fun a ha hb => hdis a ha a hb rfl
    rw [Forest.get?] at hf
    by_cases he : s0 = s
    · rw [if_pos he] at hf
      cases hf
      have hrr : r0 = r := by simpa [Dict.get?, he] using hch
      subst hrr
      have hAA : A = A0 := reads_addr hra h2
      subst hAA
      rw [setChild, if_pos he, Forest.put, if_pos he]
      refine ⟨A' ++ B', ?_, ?_, ?_⟩
      · rw [ReadsF]
        exact ⟨r', ch', A', B', rfl, hr', h3.frame fun a ha =>
          hfr a (List.mem_append_right _ ha) fun haA => hdis' a haA ha, rfl⟩
      · refine List.nodup_append.2 ⟨hA', hB', ?_⟩
        rintro a ha b hb rfl
        rcases hA a ha with h | h
        · exact hdis' a h hb
        · have := hm a (List.mem_append_right _ hb); omega
      · intro a ha
        rcases List.mem_append.1 ha with ha | ha
        · exact (hA a ha).imp (fun h => List.mem_append_left _ h) id
        · exact Or.inl (List.mem_append_right _ ha)
    · rw [if_neg he] at hf
      have hch' : Dict.get? ch' s = some r := by simpa [Dict.get?, he] using hch
      have hAB : ∀ a ∈ A, a ∈ B' := by
        rcases h3.get? (s := s) with ⟨g1, g2⟩ | ⟨t1, r1, A1, g1, g2, g3, g4⟩
        · rw [g1] at hf; cases hf
        · rw [g1] at hf; cases hf
          rw [g2] at hch'; cases hch'
          rw [reads_addr hra g3]
          exact fun a ha => g4.subset ha
      obtain ⟨B1, k1, k2, k3⟩ := ReadsF.put hr' hA' h3 hB' hf hch' hra
        (fun a ha => hm a (List.mem_append_right _ ha)) hA
        (fun a ha hn => hfr a (List.mem_append_right _ ha) hn)
      rw [setChild, if_neg he, Forest.put, if_neg he]
      refine ⟨A0 ++ B1, ?_, ?_, ?_⟩
      · rw [ReadsF]
        exact ⟨r0, _, A0, B1, rfl, h2.frame fun a ha =>
          hfr a (List.mem_append_left _ ha) fun haA => hdis' a ha (hAB a haA), k1, rfl⟩
      · refine List.nodup_append.2 ⟨hA0, k2, ?_⟩
        rintro a ha b hb rfl
        rcases k3 a hb with h | h
        · exact hdis' a ha h
        · have := hm a (List.mem_append_left _ ha); omega
      · intro a ha
        rcases List.mem_append.1 ha with ha | ha
        · exact Or.inl (List.mem_append_left _ ha)
        · exact (k3 a ha).imp (fun h => List.mem_append_right _ h) id

/-- `modify_dict` on the heap. -/
theorem modify_agrees (x : α) : ∀ (n : Nat) {obs : Obs V S} {h : TreeHeap V S α} {r : Ref α}
    {t : Tree V S α} {A : List Nat}, Reads h r t A → A.Nodup → t.height ≤ n →
    Agrees (modify x n obs h r) (t.modify obs x) (Post True True h A)
  | n, obs, h, r, .leaf y, A, hr, _, _ => by
    rw [Reads] at hr
    obtain ⟨rfl, rfl⟩ := hr
    have : modify x n obs h (.val y) = .ok (h, .val x) := by cases n <;> rfl
    rw [this, Tree.modify]
    exact ⟨⟨le_refl _, fun a _ _ => rfl⟩, [], by rw [Reads]; exact ⟨rfl, rfl⟩, by simp, by simp⟩
  | 0, obs, h, r, .node v f, A, hr, _, hn => by simp [Tree.height] at hn
  | n + 1, obs, h, r, .node v f, A, hr, hA, hn => by
    rw [Reads] at hr
    obtain ⟨a, ch, B, rfl, h2, h3, rfl⟩ := hr
    have hnf : f.height ≤ n := by rw [Tree.height] at hn; omega
    obtain ⟨haB, hB⟩ := List.nodup_cons.1 hA
    rw [modify, Tree.modify, h2]
    by_cases ho : obs.length = 0
    · simp only [ho, if_true]
      exact ⟨⟨le_refl _, fun a _ _ => rfl⟩, [], by rw [Reads]; exact ⟨rfl, rfl⟩, by simp, by simp⟩
    simp only [ho, if_false]
    rcases hg : Dict.get? obs v with _ | s
    · have hc := children_agrees (fun hr hA hn => modify_agrees x n (obs := obs) hr hA hn) h3 hB hnf
      rw [← Forest.modifyAll_eq] at hc
      simp only
      rcases hx : children (modify x n obs) h ch with e | ⟨h1, ch1⟩ <;>
        rcases hy : Forest.modifyAll obs x f with e' | f' <;> rw [hx, hy] at hc <;>
        simp only [Agrees] at hc
      · rw [hc]; rfl
      · exact (post_node v hc).mono fun b hb => List.mem_cons_of_mem _ hb
    · simp only
      rw [Forest.modifyAt_eq]
      rcases h3.get? (s := s) with ⟨g1, g2⟩ | ⟨t', r', A', g1, g2, g3, g4⟩
      · rw [g1, g2]; simp only [Agrees]; rfl
      · rw [g1, g2]
        have hc := modify_agrees x n (obs := obs.filter fun p => p.1 ≠ v) g3 (hB.sublist g4)
          ((Forest.height_get? g1).trans hnf)
        simp only
        rcases hx : modify x n (obs.filter fun p => p.1 ≠ v) h r' with e | ⟨h1, r1⟩ <;>
          rcases hy : Tree.modify (obs.filter fun p => p.1 ≠ v) x t' with e' | t1 <;>
          rw [hx, hy] at hc <;> simp only [Agrees] at hc
        · rw [hc]; rfl
        · obtain ⟨⟨hl, hfr⟩, A1, k1, k2, k3⟩ := hc
          have hb := h3.bound
          have ha : a < h.length := by
            by_contra hc
            rw [List.getElem?_eq_none (by omega)] at h2; cases h2
          have haA' : a ∉ A' := fun hc => haB (g4.subset hc)
          have hcell : h1[a]? = some (v, ch) := by rw [hfr a ha fun _ => haA', h2]
          have haA1 : a ∉ A1 := fun hc => by
            rcases k3 a hc with h | h
            · exact haA' h.2
            · omega
          have hst : ∀ b, b ≠ a → (store h1 a s r1)[b]? = h1[b]? := by
            intro b hb
            rw [store, List.getElem?_modify]
            simp [Ne.symm hb]
          obtain ⟨B1, l1, l2, l3⟩ := ReadsF.put (h' := store h1 a s r1)
            (k1.frame fun b hb => hst b fun hc => haA1 (hc ▸ hb)) k2 (m := h.length) h3 hB g1 g2 g3
            hb (fun b hb => (k3 b hb).imp (fun h => h.2) id)
            (fun b hbB hbA => by
              rw [hst b fun hc => haB (hc ▸ hbB), hfr b (hb b hbB) fun _ => hbA])
          refine ⟨⟨by simpa [store] using hl, fun b hbl hw => ?_⟩, a :: B1, ?_, ?_, ?_⟩
          · have hn := hw trivial
            rw [List.mem_cons, not_or] at hn
            rw [hst b hn.1, hfr b hbl fun _ hc => hn.2 (g4.subset hc)]
          · rw [Reads]
            refine ⟨a, _, B1, rfl, ?_, l1, rfl⟩
            rw [store, List.getElem?_modify, hcell]; simp
          · refine List.nodup_cons.2 ⟨fun hc => ?_, l2⟩
            rcases l3 a hc with h | h
            · exact haB h
            · omega
          · intro b hb
            rcases List.mem_cons.1 hb with rfl | hb
            · exact Or.inl ⟨trivial, List.mem_cons_self ..⟩
            · exact (l3 b hb).imp (fun h => ⟨trivial, List.mem_cons_of_mem _ h⟩) id

mutual
theorem alloc_post : ∀ (t : Tree V S α) (h : TreeHeap V S α),
    Post False False h [] (alloc h t).1 (alloc h t).2 t
  | .leaf x, h => by
    rw [alloc]
    exact ⟨⟨le_refl _, fun a _ _ => rfl⟩, [], by rw [Reads]; exact ⟨rfl, rfl⟩, by simp, by simp⟩
  | .node v f, h => by
    rw [alloc]
    exact post_node v (allocF_post f h)
theorem allocF_post : ∀ (f : Forest V S α) (h : TreeHeap V S α),
    PostF False False h [] (allocF h f).1 (allocF h f).2 f
  | .nil, h => by
    rw [allocF]
    exact ⟨⟨le_refl _, fun a _ _ => rfl⟩, [], by rw [ReadsF]; exact ⟨rfl, rfl⟩, by simp, by simp⟩
  | .cons s t f, h => by
    rw [allocF]
    obtain ⟨⟨hl, hfr⟩, A, h1, h2, h3⟩ := alloc_post t h
    obtain ⟨⟨hl', hfr'⟩, B, k1, k2, k3⟩ := allocF_post f (alloc h t).1
    have hb := h1.bound
    refine ⟨⟨hl.trans hl', fun a ha _ => ?_⟩, A ++ B, ?_, ?_, ?_⟩
    · rw [hfr' a (by omega) (fun h => h.elim), hfr a ha (fun h => h.elim)]
    · rw [ReadsF]
      exact ⟨_, _, A, B, rfl, h1.frame fun a ha => hfr' a (hb a ha) (fun h => h.elim), k1, rfl⟩
    · refine List.nodup_append.2 ⟨h2, k2, ?_⟩
      rintro a ha b hb2 rfl
      rcases k3 a hb2 with h | h
      · exact h.1.elim
      · have := hb a ha; omega
    · intro a ha
      rcases List.mem_append.1 ha with ha | ha
      · exact h3 a ha
      · rcases k3 a ha with h | h
        · exact h.1.elim
        · exact Or.inr (hl.trans h)
end

end TreeHeap

/-! ### Heights -/

mutual
theorem Tree.height_restrict {obs : Obs V S} : ∀ {t r : Tree V S α}, t.restrict obs = .ok r →
    r.height ≤ t.height
  | .leaf x, r, h => by rw [Tree.restrict] at h; cases h; exact le_refl _
  | .node v f, r, h => by
    rw [Tree.restrict] at h
    split at h
    · cases h; exact le_refl _
    · split at h
      · rcases h1 : Forest.restrictAll obs f with e | f' <;> rw [h1] at h
        · cases h
        · cases h
          have := Forest.height_restrictAll h1
          rw [Tree.height, Tree.height]; omega
      · rename_i s _
        have := Forest.height_restrictAt h
        rw [Tree.height]; omega
theorem Forest.height_restrictAll {obs : Obs V S} : ∀ {f g : Forest V S α},
    Forest.restrictAll obs f = .ok g → g.height ≤ f.height
  | .nil, g, h => by rw [Forest.restrictAll] at h; cases h; exact le_refl _
  | .cons s t f, g, h => by
    rw [Forest.restrictAll] at h
    rcases h1 : Tree.restrict obs t with e | t' <;> rw [h1] at h
    · cases h
    · simp only [py_ok_bind] at h
      rcases h2 : Forest.restrictAll obs f with e | f' <;> rw [h2] at h
      · cases h
      · cases h
        rw [Forest.height, Forest.height]
        exact max_le_max (Tree.height_restrict h1) (Forest.height_restrictAll h2)
theorem Forest.height_restrictAt {obs : Obs V S} {s : S} : ∀ {f : Forest V S α} {r : Tree V S α},
    Forest.restrictAt obs s f = .ok r → r.height ≤ f.height
  | .nil, r, h => by rw [Forest.restrictAt] at h; cases h
  | .cons s' t f, r, h => by
    rw [Forest.restrictAt] at h
    rw [Forest.height]
    split at h
    · exact (Tree.height_restrict h).trans (le_max_left _ _)
    · exact (Forest.height_restrictAt h).trans (le_max_right _ _)
end

mutual
theorem Tree.height_modify {obs : Obs V S} {x : α} : ∀ {t r : Tree V S α}, t.modify obs x = .ok r →
    r.height ≤ t.height
  | .leaf y, r, h => by rw [Tree.modify] at h; cases h; exact le_refl _
  | .node v f, r, h => by
    rw [Tree.modify] at h
    split at h
    · cases h; rw [Tree.height]; omega
    · split at h
      · rcases h1 : Forest.modifyAll obs x f with e | f' <;> rw [h1] at h
        · cases h
        · cases h
          have := Forest.height_modifyAll h1
          rw [Tree.height, Tree.height]; omega
      · rename_i s _
        rcases h1 : Forest.modifyAt (obs.filter fun p => p.1 ≠ v) x s f with e | f' <;> rw [h1] at h
        · cases h
        · cases h
          have := Forest.height_modifyAt h1
          rw [Tree.height, Tree.height]; omega
theorem Forest.height_modifyAll {obs : Obs V S} {x : α} : ∀ {f g : Forest V S α},
    Forest.modifyAll obs x f = .ok g → g.height ≤ f.height
  | .nil, g, h => by rw [Forest.modifyAll] at h; cases h; exact le_refl _
  | .cons s t f, g, h => by
    rw [Forest.modifyAll] at h
    rcases h1 : Tree.modify obs x t with e | t' <;> rw [h1] at h
    · cases h
    · simp only [py_ok_bind] at h
      rcases h2 : Forest.modifyAll obs x f with e | f' <;> rw [h2] at h
      · cases h
      · cases h
        rw [Forest.height, Forest.height]
        exact max_le_max (Tree.height_modify h1) (Forest.height_modifyAll h2)
theorem Forest.height_modifyAt {obs : Obs V S} {x : α} {s : S} : ∀ {f g : Forest V S α},
    Forest.modifyAt obs x s f = .ok g → g.height ≤ f.height
  | .nil, g, h => by rw [Forest.modifyAt] at h; cases h
  | .cons s' t f, g, h => by
    rw [Forest.modifyAt] at h
    split at h
    · rcases h1 : Tree.modify obs x t with e | t' <;> rw [h1] at h
      · cases h
      · cases h
        rw [Forest.height, Forest.height]
        exact max_le_max (Tree.height_modify h1) (le_refl _)
    · rcases h2 : Forest.modifyAt obs x s f with e | f' <;> rw [h2] at h
      · cases h
      · cases h
        rw [Forest.height, Forest.height]
        exact max_le_max (le_refl _) (Forest.height_modifyAt h2)
end

theorem Forest.height_ofList {n : Nat} : ∀ {l : List (S × Tree V S α)},
    (∀ p ∈ l, p.2.height ≤ n) → (Forest.ofList l).height ≤ n
  | [], _ => by rw [Forest.ofList, Forest.height]; omega
  | p :: l, h => by
    rw [Forest.ofList, Forest.height]
    exact max_le (h p (by simp)) (Forest.height_ofList fun q hq => h q (List.mem_cons_of_mem _ hq))

theorem height_buildDefaultTree [Inhabited α] : ∀ (d : Dom V S) (data : List α),
    (buildDefaultTree d data).height ≤ d.length
  | [], data => by rw [buildDefaultTree, Tree.height]; omega
  | [p], data => by
    rw [buildDefaultTree, Tree.height]
    have : (Forest.ofList ((p.2.zip data).map fun q => (q.1, (Tree.leaf q.2 : Tree V S α)))).height ≤ 0 :=
      Forest.height_ofList fun q hq => by
        obtain ⟨w, _, rfl⟩ := List.mem_map.1 hq
        simp [Tree.height]
    simp only [List.length_singleton]; omega
  | p :: q :: d, data => by
    rw [buildDefaultTree, Tree.height]
    refine Nat.succ_le_succ (Forest.height_ofList fun w hw => ?_)
    obtain ⟨u, _, rfl⟩ := List.mem_map.1 hw
    exact height_buildDefaultTree (q :: d) _
    simp

end Verif
