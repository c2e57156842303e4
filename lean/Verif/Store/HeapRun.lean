import Verif.Store.HeapLemmas

/-!
# Programs on stores: objects and values agree

`TreeState.Inv n own st sts`: the objects `st` hold the values `sts`; an object marked in `own` has
no node in common with any other object.
-/

set_option linter.unusedSectionVars false
set_option linter.unusedSimpArgs false

namespace Verif

variable {V S α : Type} [DecidableEq V] [DecidableEq S]

/-- Which stores may be written: a store made by the constructor or by `copy()`, as long as nothing
has been restricted or shallowly copied from it.  `none` when the step writes into another one. -/
def ownStep (own : List Bool) : StoreOp V S α → Option (List Bool)
  | .new _ _ => some (own ++ [true])
  | .restrict i _ => some (own.set i false ++ [false])
  | .copy _ => some (own ++ [true])
  | .shallow i => some (own.set i false ++ [false])
  | .write i _ _ => if own[i]? = some false then none else some own

namespace TreeState

open TreeHeap

/-- What relates an object and a value. -/
structure Holds (n : Nat) (h : TreeHeap V S α) (o : TreeObj V S α) (s : TreeStore V S α)
    (A : List Nat) : Prop where
  dom : o.dom = s.dom
  reads : Reads h o.data s.data A
  nodup : A.Nodup
  height : s.data.height ≤ n
  size : s.dom.length ≤ n

/-- The objects hold the values. -/
def Inv (n : Nat) (own : List Bool) (st : TreeState V S α) (sts : List (TreeStore V S α)) : Prop :=
  st.objs.length = sts.length ∧ own.length = sts.length ∧ ∃ addr : Nat → List Nat,
    (∀ i o s, st.objs[i]? = some o → sts[i]? = some s → Holds n st.heap o s (addr i)) ∧
    ∀ i j, i < sts.length → j < sts.length → own[i]? = some true → i ≠ j → ∀ a ∈ addr i, a ∉ addr j

/-- Result and value agree. -/
def Agrees2 {β γ : Type} (x : Py β) (y : Py γ) (post : β → γ → Prop) : Prop :=
  match x, y with
  | .ok p, .ok t => post p t
  | .error e, .error e' => e = e'
  | _, _ => False

theorem build_agrees {n : Nat} {h : TreeHeap V S α} {dom : Dom V S} {r : Ref α} {t : Tree V S α}
    {A : List Nat} (hr : Reads h r t A) (hA : A.Nodup) (hn : t.height ≤ n) (hd : dom.length ≤ n) :
    Agrees2 (build h dom r) (TreeStore.build dom t) fun p s =>
      Frame False A h p.1 ∧ ∃ A', Holds n p.1 p.2 s A' ∧ ∀ a ∈ A', a ∈ A ∨ h.length ≤ a := by
  have hsame : Frame False A h h := ⟨le_refl _, fun a _ _ => rfl⟩
  cases t with
  | node v f =>
    have hr0 := hr
    rw [Reads] at hr
    obtain ⟨a, ch, B, rfl, h2, h3, rfl⟩ := hr
    exact ⟨hsame, a :: B, ⟨rfl, hr0, hA, hn, hd⟩, fun b hb => Or.inl hb⟩
  | leaf x =>
    have hr0 := hr
    rw [Reads] at hr
    obtain ⟨rfl, rfl⟩ := hr
    match dom, hd with
    | [], hd =>
      exact ⟨hsame, [], ⟨rfl, hr0, hA, hn, hd⟩, fun b hb => Or.inl hb⟩
    | [(v, s :: st)], hd =>
      refine ⟨⟨by simp, fun a ha _ => by rw [List.getElem?_append_left ha]⟩, [h.length],
        ⟨rfl, ?_, by simp, ?_, hd⟩, by simp⟩
      · simp only [Reads, ReadsF]
        refine ⟨h.length, [(s, .val x)], [], rfl, by simp, ⟨.val x, [], [], [], rfl, ⟨rfl, rfl⟩, ⟨rfl, rfl⟩, rfl⟩, rfl⟩
      · simpa [Tree.height, Forest.height] using hd
    | [(v, [])], hd =>
      refine ⟨⟨by simp, fun a ha _ => by rw [List.getElem?_append_left ha]⟩, [h.length],
        ⟨rfl, ?_, by simp, ?_, hd⟩, by simp⟩
      · simp only [Reads, ReadsF]
        exact ⟨h.length, [], [], rfl, by simp, ⟨rfl, rfl⟩, rfl⟩
      · simpa [Tree.height, Forest.height] using hd
    | (v, []) :: q :: d, _ => exact rfl
    | (v, s :: st) :: q :: d, _ => exact rfl

theorem Holds.frame {n : Nat} {h h' : TreeHeap V S α} {o : TreeObj V S α} {s : TreeStore V S α}
    {A : List Nat} (ho : Holds n h o s A) (hf : ∀ a ∈ A, h'[a]? = h[a]?) : Holds n h' o s A :=
  ⟨ho.dom, ho.reads.frame hf, ho.nodup, ho.height, ho.size⟩

/-- An object is added; `src` is the store it may share nodes with. -/
theorem Inv.push {n : Nat} {own : List Bool} {st : TreeState V S α} {sts : List (TreeStore V S α)}
    (hi : Inv n own st sts) {h' : TreeHeap V S α} {o : TreeObj V S α} {s : TreeStore V S α}
    {own' : List Bool} {b : Bool}
    (hl : own'.length = own.length) (hle : ∀ i : Nat, own'[i]? = some true → own[i]? = some true)
    (hnew : ∃ A', Holds n h' o s A' ∧ ∀ a ∈ A', st.heap.length ≤ a ∨
      ∃ j A, j < sts.length ∧ b = false ∧ own'[j]? ≠ some true ∧ a ∈ A ∧
        ∃ o' s', st.objs[j]? = some o' ∧ sts[j]? = some s' ∧ Reads st.heap o'.data s'.data A)
    (hf : ∀ a, a < st.heap.length → h'[a]? = st.heap[a]?) :
    Inv n (own' ++ [b]) (st.push (h', o)) (sts ++ [s]) := by
  obtain ⟨h1, h2, addr, h3, h4⟩ := hi
  obtain ⟨A', hA, hA'⟩ := hnew
  have hb : ∀ j, j < sts.length → ∀ a ∈ addr j, a < st.heap.length := by
    intro j hj a ha
    have e1 : st.objs[j]? = some st.objs[j] := List.getElem?_eq_getElem (by omega)
    have e2 : sts[j]? = some sts[j] := List.getElem?_eq_getElem hj
    exact (h3 j _ _ e1 e2).reads.bound a ha
  have hshare : ∀ j, j < sts.length → (b = true ∨ own'[j]? = some true) → ∀ a ∈ A', a ∉ addr j := by
    intro j hj hjo a ha haj
    have := hb j hj a haj
    rcases hA' a ha with h | ⟨k, A, hk, hbf, hno, haA, o', s', e1, e2, hR⟩
    · omega
    · rcases hjo with h | h
      · rw [hbf] at h; cases h
      · have hkA : A = addr k := reads_addr hR (h3 k _ _ e1 e2).reads
        subst hkA
        by_cases hjk : j = k
        · exact hno (hjk ▸ h)
        · exact h4 j k hj hk (hle j h) hjk a haj haA
  refine ⟨by simp [TreeState.push, h1], by simp [hl, h2], fun i => if i < sts.length then addr i else A', ?_, ?_⟩
  · intro i o' s' e1 e2
    by_cases hi : i < sts.length
    · simp only [hi, if_true]
      rw [List.getElem?_append_left hi] at e2
      simp only [TreeState.push] at e1
      rw [List.getElem?_append_left (by omega)] at e1
      exact (h3 i _ _ e1 e2).frame fun a ha => hf a (hb i hi a ha)
    · simp only [hi, if_false]
      have hil : i = sts.length := by
        have := (List.getElem?_eq_some_iff.1 e2).1
        simp at this; omega
      subst hil
      simp only [TreeState.push, ← h1] at e1
      simp at e1 e2
      subst e1; subst e2
      exact hA
  · intro i j hi hj hown hij a ha
    simp only [List.length_append, List.length_singleton] at hi hj
    by_cases hi' : i < sts.length
    · rw [List.getElem?_append_left (by omega)] at hown
      simp only [hi', if_true] at ha
      by_cases hj' : j < sts.length
      · simp only [hj', if_true]
        exact h4 i j hi' hj' (hle i hown) hij a ha
      · simp only [hj', if_false]
        exact fun hc => hshare i hi' (Or.inr hown) a hc ha
    · have hil : i = sts.length := by omega
      simp only [hi', if_false] at ha
      have hj' : j < sts.length := by omega
      simp only [hj', if_true]
      have hbt : b = true := by
        rw [hil, ← h2, ← hl] at hown
        simpa using hown
      exact hshare j hj' (Or.inl hbt) a ha

theorem obj_cases {n : Nat} {own : List Bool} {st : TreeState V S α} {sts : List (TreeStore V S α)}
    (hi : Inv n own st sts) (i : Nat) :
    (st.obj i = .error .indexError ∧ sts[i]? = none) ∨
      ∃ o s, st.obj i = .ok o ∧ sts[i]? = some s ∧ st.objs[i]? = some o ∧ i < sts.length := by
  by_cases h : i < sts.length
  · have h' : i < st.objs.length := by rw [hi.1]; exact h
    exact Or.inr ⟨st.objs[i], sts[i], by rw [obj, List.getElem?_eq_getElem h'],
      List.getElem?_eq_getElem h, List.getElem?_eq_getElem h', h⟩
  · have h' : ¬ i < st.objs.length := by rw [hi.1]; exact h
    exact Or.inl ⟨by rw [obj, List.getElem?_eq_none (by omega)], List.getElem?_eq_none (by omega)⟩

variable [Inhabited α]

/-- One step. -/
theorem step_agrees {n : Nat} {own own' : List Bool} {st : TreeState V S α}
    {sts : List (TreeStore V S α)} (hi : Inv n own st sts) {op : StoreOp V S α}
    (hnew : ∀ d data, op = .new d data → d.length ≤ n) (hown : ownStep own op = some own') :
    Agrees2 (st.step n op) (valueStep TreeStore.fns sts op)
      (Inv n own') := by
  have hi0 := hi
  obtain ⟨hl1, hl2, addr, h3, h4⟩ := hi0
  have hset : ∀ i, (own.set i false).length = own.length := by simp
  have hsetle : ∀ i j : Nat, (own.set i false)[j]? = some true → own[j]? = some true := by
    intro i j h
    rw [List.getElem?_set] at h
    split at h
    · split at h <;> simp at h
    · exact h
  cases op with
  | new d data =>
    simp only [ownStep, Option.some.injEq] at hown
    subst hown
    simp only [step, valueStep, TreeStore.fns, TreeStore.ofFlat?]
    by_cases hd : data.length = (cards d).prod
    · rw [if_pos hd, if_pos hd]
      obtain ⟨⟨hl, hfr⟩, A, k1, k2, k3⟩ := alloc_post (buildDefaultTree d data) st.heap
      refine Inv.push hi rfl (fun i h => h) ⟨A, ⟨rfl, k1, k2, ?_, hnew d data rfl⟩, fun a ha => Or.inl ?_⟩
        fun a ha => hfr a ha (fun h => h.elim)
      · exact (height_buildDefaultTree d data).trans (hnew d data rfl)
      · exact (k3 a ha).resolve_left fun h => h.1
    · rw [if_neg hd, if_neg hd]; exact rfl
  | restrict i obs =>
    simp only [ownStep, Option.some.injEq] at hown
    subst hown
    simp only [step, valueStep, TreeStore.fns]
    rcases obj_cases hi i with ⟨e1, e2⟩ | ⟨o, s, e1, e2, e3, e4⟩
    · rw [e1, e2]; exact rfl
    rw [e1, e2]
    simp only [py_ok_bind, TreeStore.restrict]
    have ho := h3 i o s e3 e2
    have hc := restrict_agrees n (obs := obs) ho.reads ho.nodup ho.height
    rcases hx : TreeHeap.restrict n obs st.heap o.data with e | ⟨h1, r1⟩ <;>
      rcases hy : s.data.restrict obs with e' | t1 <;> rw [hx, hy] at hc <;> simp only [Agrees] at hc
    · rw [hc]; exact rfl
    · obtain ⟨⟨hl, hfr⟩, A1, k1, k2, k3⟩ := hc
      simp only [py_ok_bind]
      have hbd := build_agrees (n := n) (dom := s.dom.filter fun p => p.1 ∉ Dict.keys obs) k1 k2
        ((Tree.height_restrict hy).trans ho.height) ((List.length_filter_le _ _).trans ho.size)
      rw [ho.dom]
      rcases hx' : build h1 (s.dom.filter fun p => p.1 ∉ Dict.keys obs) r1 with e | ⟨h2, o2⟩ <;>
        rcases hy' : TreeStore.build (s.dom.filter fun p => p.1 ∉ Dict.keys obs) t1 with e' | s2 <;>
        rw [hx', hy'] at hbd <;> simp only [Agrees2] at hbd
      · rw [hbd]; exact rfl
      · obtain ⟨⟨hl', hfr'⟩, A2, l1, l2⟩ := hbd
        refine Inv.push hi (hset i) (hsetle i) ⟨A2, l1, fun a ha => ?_⟩ fun a ha => ?_
        · rcases l2 a ha with h | h
          · rcases k3 a h with h | h
            · refine Or.inr ⟨i, addr i, e4, rfl, ?_, h.2, o, s, e3, e2, ho.reads⟩
              rw [List.getElem?_set]; simp
            · exact Or.inl h
          · exact Or.inl (hl.trans h)
        · rw [hfr' a (by omega) (fun h => h.elim), hfr a ha (fun h => h.elim)]
  | copy i =>
    simp only [ownStep, Option.some.injEq] at hown
    subst hown
    simp only [step, valueStep, TreeStore.fns]
    rcases obj_cases hi i with ⟨e1, e2⟩ | ⟨o, s, e1, e2, e3, e4⟩
    · rw [e1, e2]; exact rfl
    rw [e1, e2]
    simp only [py_ok_bind]
    have ho := h3 i o s e3 e2
    have hc := deepcopy_agrees n ho.reads ho.nodup ho.height
    rcases hx : TreeHeap.deepcopy n st.heap o.data with e | ⟨h1, r1⟩ <;>
      rw [hx] at hc <;> simp only [Agrees] at hc
    obtain ⟨⟨hl, hfr⟩, A1, k1, k2, k3⟩ := hc
    simp only [py_ok_bind]
    have hbd := build_agrees (n := n) (dom := s.dom) k1 k2 ho.height ho.size
    rw [ho.dom]
    rcases hx' : build h1 s.dom r1 with e | ⟨h2, o2⟩ <;>
      rcases hy' : TreeStore.build s.dom s.data with e' | s2 <;>
      rw [hx', hy'] at hbd <;> simp only [Agrees2] at hbd
    · rw [hbd]; exact rfl
    · obtain ⟨⟨hl', hfr'⟩, A2, l1, l2⟩ := hbd
      refine Inv.push hi rfl (fun i h => h) ⟨A2, l1, fun a ha => Or.inl ?_⟩ fun a ha => ?_
      · rcases l2 a ha with h | h
        · exact (k3 a h).resolve_left fun h => h.1
        · exact hl.trans h
      · rw [hfr' a (by omega) (fun h => h.elim), hfr a ha (fun h => h.elim)]
  | shallow i =>
    simp only [ownStep, Option.some.injEq] at hown
    subst hown
    simp only [step, valueStep, TreeStore.fns]
    rcases obj_cases hi i with ⟨e1, e2⟩ | ⟨o, s, e1, e2, e3, e4⟩
    · rw [e1, e2]; exact rfl
    rw [e1, e2]
    simp only [py_ok_bind]
    have ho := h3 i o s e3 e2
    have hbd := build_agrees (n := n) (dom := s.dom) ho.reads ho.nodup ho.height ho.size
    rw [ho.dom]
    rcases hx' : build st.heap s.dom o.data with e | ⟨h2, o2⟩ <;>
      rcases hy' : TreeStore.build s.dom s.data with e' | s2 <;>
      rw [hx', hy'] at hbd <;> simp only [Agrees2] at hbd
    · rw [hbd]; exact rfl
    · obtain ⟨⟨hl', hfr'⟩, A2, l1, l2⟩ := hbd
      refine Inv.push hi (hset i) (hsetle i) ⟨A2, l1, fun a ha => ?_⟩ fun a ha => ?_
      · rcases l2 a ha with h | h
        · refine Or.inr ⟨i, addr i, e4, rfl, ?_, h, o, s, e3, e2, ho.reads⟩
          rw [List.getElem?_set]; simp
        · exact Or.inl h
      · exact hfr' a ha (fun h => h.elim)
  | write i x obs =>
    simp only [ownStep] at hown
    split at hown
    · cases hown
    rename_i hnf
    simp only [Option.some.injEq] at hown
    subst hown
    simp only [step, valueStep, TreeStore.fns]
    rcases obj_cases hi i with ⟨e1, e2⟩ | ⟨o, s, e1, e2, e3, e4⟩
    · rw [e1, e2]; exact rfl
    rw [e1, e2]
    have hit : own[i]? = some true := by
      have : own[i]? = some own[i] := List.getElem?_eq_getElem (by omega)
      rw [this] at hnf ⊢
      cases hb : own[i] with
      | false => rw [hb] at hnf; exact absurd rfl hnf
      | true => rfl
    simp only [py_ok_bind, TreeStore.setValue]
    have ho := h3 i o s e3 e2
    rw [ho.dom]
    have hc := modify_agrees x n (obs := obs.filter fun p => p.1 ∈ Dict.keys s.dom)
      ho.reads ho.nodup ho.height
    rcases hx : TreeHeap.modify x n (obs.filter fun p => p.1 ∈ Dict.keys s.dom) st.heap o.data with
        e | ⟨h1, r1⟩ <;>
      rcases hy : s.data.modify (obs.filter fun p => p.1 ∈ Dict.keys s.dom) x with e' | t1 <;>
      rw [hx, hy] at hc <;> simp only [Agrees] at hc
    · rw [hc]; exact rfl
    · obtain ⟨⟨hl, hfr⟩, A1, k1, k2, k3⟩ := hc
      have hb : ∀ j, j < sts.length → ∀ a ∈ addr j, a < st.heap.length := by
        intro j hj a ha
        have e1 : st.objs[j]? = some st.objs[j] := List.getElem?_eq_getElem (by omega)
        have e2 : sts[j]? = some sts[j] := List.getElem?_eq_getElem hj
        exact (h3 j _ _ e1 e2).reads.bound a ha
      have hdis : ∀ j, j < sts.length → j ≠ i → ∀ a ∈ A1, a ∉ addr j := by
        intro j hj hji a ha haj
        rcases k3 a ha with h | h
        · exact h4 i j e4 hj hit (Ne.symm hji) a h.2 haj
        · have := hb j hj a haj; omega
      refine ⟨by simp [hl1], by simp [hl2], fun j => if j = i then A1 else addr j, ?_, ?_⟩
      · intro j o' s' f1 f2
        by_cases hji : j = i
        · subst hji
          simp only [if_true]
          rw [List.getElem?_set_self (by omega)] at f1
          rw [List.getElem?_set_self e4] at f2
          cases f1; cases f2
          exact ⟨rfl, k1, k2, (Tree.height_modify hy).trans ho.height, ho.size⟩
        · simp only [hji, if_false]
          rw [List.getElem?_set_ne (Ne.symm hji)] at f1 f2
          have hjl := (List.getElem?_eq_some_iff.1 f2).1
          refine (h3 j _ _ f1 f2).frame fun a ha => hfr a (hb j hjl a ha) fun _ hc => ?_
          exact h4 i j e4 hjl hit (Ne.symm hji) a hc ha
      · intro j k hj hk hoj hjk a ha
        simp only [List.length_set] at hj hk
        by_cases hji : j = i
        · simp only [hji, if_true] at ha
          have hki : k ≠ i := fun h => hjk (hji.trans h.symm)
          simp only [hki, if_false]
          exact hdis k hk hki a ha
        · simp only [hji, if_false] at ha
          by_cases hki : k = i
          · simp only [hki, if_true]
            exact fun hc => hdis j hj hji a hc ha
          · simp only [hki, if_false]
            exact h4 j k hj hk hoj hjk a ha

/-- Whole programs: `ownStep` never fails. -/
theorem runFrom_agrees {n : Nat} : ∀ (ops : List (StoreOp V S α)) {own own' : List Bool}
    {st : TreeState V S α} {sts : List (TreeStore V S α)}, Inv n own st sts →
    (∀ d data, .new d data ∈ ops → d.length ≤ n) → ops.foldlM ownStep own = some own' →
    Agrees2 (ops.foldlM (step n) st)
      (ops.foldlM (valueStep TreeStore.fns) sts) (Inv n own')
  | [], own, own', st, sts, hi, _, ho => by
    cases ho; exact hi
  | op :: ops, own, own', st, sts, hi, hn, ho => by
    rw [List.foldlM_cons] at ho ⊢
    rw [List.foldlM_cons]
    rcases h1 : ownStep own op with _ | own1
    · rw [h1] at ho; cases ho
    rw [h1] at ho
    have hs := step_agrees hi (op := op) (fun d data h => hn d data (h ▸ List.mem_cons_self ..)) h1
    rcases hx : step n st op with e | st1 <;>
      rcases hy : valueStep TreeStore.fns sts op with e' | sts1 <;>
      rw [hx, hy] at hs <;> simp only [Agrees2] at hs
    · rw [hs]; exact rfl
    · simp only [py_ok_bind]
      exact runFrom_agrees ops hs (fun d data h => hn d data (List.mem_cons_of_mem _ h)) ho

/-- Reading an object is reading its value. -/
theorem read_eq {n : Nat} {own : List Bool} {st : TreeState V S α} {sts : List (TreeStore V S α)}
    (hi : Inv n own st sts) {i : Nat} {s : TreeStore V S α} (hs : sts[i]? = some s) (obs : Obs V S) :
    st.read n i obs = s.getValue obs := by
  obtain ⟨hl1, hl2, addr, h3, h4⟩ := hi
  have hil := (List.getElem?_eq_some_iff.1 hs).1
  have e3 : st.objs[i]? = some st.objs[i] := List.getElem?_eq_getElem (by omega)
  have ho := h3 i _ s e3 hs
  generalize st.objs[i] = o at e3 ho
  have e1 : st.obj i = .ok o := by rw [obj, e3]
  rw [read, e1, TreeStore.getValue, TreeStore.restrict]
  simp only [py_ok_bind]
  have hc := restrict_agrees n (obs := obs) ho.reads ho.nodup ho.height
  rcases hx : TreeHeap.restrict n obs st.heap o.data with e | ⟨h1, r1⟩ <;>
    rcases hy : s.data.restrict obs with e' | t1 <;> rw [hx, hy] at hc <;> simp only [Agrees] at hc
  · rw [hc]; exact rfl
  · obtain ⟨⟨hl, hfr⟩, A1, k1, k2, k3⟩ := hc
    simp only [py_ok_bind]
    have hbd := build_agrees (n := n) (dom := s.dom.filter fun p => p.1 ∉ Dict.keys obs) k1 k2
      ((Tree.height_restrict hy).trans ho.height) ((List.length_filter_le _ _).trans ho.size)
    rw [ho.dom]
    rcases hx' : build h1 (s.dom.filter fun p => p.1 ∉ Dict.keys obs) r1 with e | ⟨h2, o2⟩ <;>
      rcases hy' : TreeStore.build (s.dom.filter fun p => p.1 ∉ Dict.keys obs) t1 with e' | s2 <;>
      rw [hx', hy'] at hbd <;> simp only [Agrees2] at hbd
    · rw [hbd]; exact rfl
    · obtain ⟨_, A2, l1, _⟩ := hbd
      have hr := l1.reads
      simp only [py_ok_bind]
      rcases hd : s2.data with x | ⟨v, f⟩ <;> rw [hd, Reads] at hr
      · rw [hr.1]
      · obtain ⟨a, ch, B, e, _⟩ := hr
        rw [e]

end TreeState

/-! ### Arrays -/

namespace ArrState

variable [Inhabited α]

/-- The objects hold the values, each with an array of its own. -/
def Inv {I : StoreImpl V S α} (st : ArrState I.St) (sts : List I.St) : Prop :=
  st.objs.length = sts.length ∧ st.objs.Nodup ∧
    ∀ (i a : Nat), st.objs[i]? = some a → a < st.heap.length ∧ st.heap[a]? = sts[i]?

theorem Inv.push {I : StoreImpl V S α} {st : ArrState I.St} {sts : List I.St}
    (hi : Inv st sts) (s : I.St) : Inv (st.push s) (sts ++ [s]) := by
  obtain ⟨h1, h2, h3⟩ := hi
  refine ⟨by simp [ArrState.push, h1], ?_, ?_⟩
  · refine List.nodup_append.2 ⟨h2, by simp, ?_⟩
    rintro a ha b hb rfl
    obtain ⟨i, hi, rfl⟩ := List.getElem_of_mem ha
    have := (h3 i _ (List.getElem?_eq_getElem hi)).1
    simp at hb; omega
  · intro i a h
    simp only [ArrState.push] at h ⊢
    by_cases hil : i < st.objs.length
    · rw [List.getElem?_append_left hil] at h
      obtain ⟨k1, k2⟩ := h3 i a h
      exact ⟨by simp; omega, by rw [List.getElem?_append_left k1, List.getElem?_append_left (by omega), k2]⟩
    · have hi' : i = st.objs.length := by
        have := (List.getElem?_eq_some_iff.1 h).1
        simp at this; omega
      subst hi'
      simp at h
      subst h
      refine ⟨by simp, ?_⟩
      rw [h1]; simp

theorem obj_cases {I : StoreImpl V S α} {st : ArrState I.St} {sts : List I.St}
    (hi : Inv st sts) (i : Nat) :
    (st.obj i = .error .indexError ∧ sts[i]? = none) ∨
      ∃ a s, st.obj i = .ok (a, s) ∧ sts[i]? = some s ∧ st.objs[i]? = some a := by
  obtain ⟨h1, h2, h3⟩ := hi
  by_cases h : i < sts.length
  · have h' : i < st.objs.length := by omega
    have e := List.getElem?_eq_getElem h'
    have e2 := List.getElem?_eq_getElem h
    refine Or.inr ⟨st.objs[i], sts[i], ?_, e2, e⟩
    rw [obj, e]; simp only [(h3 i _ e).2, e2]
  · exact Or.inl ⟨by rw [obj, List.getElem?_eq_none (by omega)], List.getElem?_eq_none (by omega)⟩

/-- One step, unless it is a shallow copy and the constructor keeps the array. -/
theorem step_agrees {I : StoreImpl V S α} {keeps : Bool} {st : ArrState I.St} {sts : List I.St}
    (hi : Inv st sts) {op : StoreOp V S α} (hk : keeps = true → ∀ i, op ≠ .shallow i) :
    TreeState.Agrees2 (st.step I keeps op) (valueStep I.fns sts op) Inv := by
  cases op with
  | new d data =>
    simp only [step, valueStep, StoreImpl.fns]
    rcases I.ofFlat d data with e | s
    · exact rfl
    · exact hi.push s
  | restrict i obs =>
    simp only [step, valueStep, StoreImpl.fns]
    rcases obj_cases hi i with ⟨e1, e2⟩ | ⟨a, s, e1, e2, e3⟩
    · rw [e1, e2]; exact rfl
    rw [e1, e2]
    simp only [py_ok_bind]
    rcases I.restrict s obs with e | s'
    · exact rfl
    · exact hi.push s'
  | copy i =>
    simp only [step, valueStep, StoreImpl.fns]
    rcases obj_cases hi i with ⟨e1, e2⟩ | ⟨a, s, e1, e2, e3⟩
    · rw [e1, e2]; exact rfl
    rw [e1, e2]
    exact hi.push s
  | shallow i =>
    have : keeps = false := by
      cases keeps
      · rfl
      · exact absurd rfl (hk rfl i)
    subst this
    simp only [step, valueStep, StoreImpl.fns]
    rcases obj_cases hi i with ⟨e1, e2⟩ | ⟨a, s, e1, e2, e3⟩
    · rw [e1, e2]; exact rfl
    rw [e1, e2]
    exact hi.push s
  | write i x obs =>
    simp only [step, valueStep, StoreImpl.fns]
    rcases obj_cases hi i with ⟨e1, e2⟩ | ⟨a, s, e1, e2, e3⟩
    · rw [e1, e2]; exact rfl
    rw [e1, e2]
    simp only [py_ok_bind]
    rcases I.setValue s x obs with e | s'
    · exact rfl
    · obtain ⟨h1, h2, h3⟩ := hi
      refine ⟨by simp [h1], h2, ?_⟩
      intro j b hj
      obtain ⟨k1, k2⟩ := h3 j b hj
      refine ⟨by simpa using k1, ?_⟩
      have hil := (List.getElem?_eq_some_iff.1 e2).1
      by_cases hji : j = i
      · subst hji
        rw [e3] at hj
        cases hj
        rw [List.getElem?_set_self k1, List.getElem?_set_self hil]
      · have hab : a ≠ b := by
          rintro rfl
          have hj' := (List.getElem?_eq_some_iff.1 hj)
          have hi' := (List.getElem?_eq_some_iff.1 e3)
          exact hji ((List.Nodup.getElem_inj_iff h2).1 (hj'.2.trans hi'.2.symm))
        rw [List.getElem?_set_ne hab, List.getElem?_set_ne (Ne.symm hji), k2]

theorem runFrom_agrees {I : StoreImpl V S α} {keeps : Bool} : ∀ (ops : List (StoreOp V S α))
    {st : ArrState I.St} {sts : List I.St}, Inv st sts →
    (keeps = true → ∀ i, .shallow i ∉ ops) →
    TreeState.Agrees2 (ops.foldlM (step I keeps) st) (ops.foldlM (valueStep I.fns) sts) Inv
  | [], st, sts, hi, _ => hi
  | op :: ops, st, sts, hi, hk => by
    rw [List.foldlM_cons, List.foldlM_cons]
    have hs := step_agrees hi (op := op) (keeps := keeps) (fun h i he => hk h i (he ▸ List.mem_cons_self ..))
    rcases hx : step I keeps st op with e | st1 <;>
      rcases hy : valueStep I.fns sts op with e' | sts1 <;>
      rw [hx, hy] at hs <;> simp only [TreeState.Agrees2] at hs
    · rw [hs]; exact rfl
    · simp only [py_ok_bind]
      exact runFrom_agrees ops hs (fun h i hm => hk h i (List.mem_cons_of_mem _ hm))

end ArrState
end Verif
