import Verif.Net.Chain

/-!
# Two networks over a graph in which a variable is connected with its child by a chain of shared exogenous variables

No reference to the code. Each exogenous variable is a fair coin with a biased second coin. The endogenous variables of the chain are the parity of the
coins of their neighbours in the chain; the last one adds the second coin of its neighbour. In the first network it also adds the first variable of the chain,
in the second one the coin of the first variable is left out everywhere else.
-/

set_option linter.unusedSectionVars false
set_option linter.unusedSimpArgs false

namespace Verif
open Relation

variable {V : Type} [DecidableEq V]

/-- `w 0` is a parent of `w n` and connected with it by a chain that meets no variable twice. -/
structure Bow (g : DiGraph V) (n : ℕ) (w u : ℕ → V) : Prop where
  wf : g.WF
  acyclic : g.Acyclic
  left : ∀ k < n, (u k, w k) ∈ g.edges
  right : ∀ k < n, (u k, w (k + 1)) ∈ g.edges
  exo : ∀ k < n, g.pred (u k) = []
  pos : 0 < n
  edge : (w 0, w n) ∈ g.edges
  wInj : ∀ i ≤ n, ∀ j ≤ n, w i = w j → i = j
  uInj : ∀ i < n, ∀ j < n, u i = u j → i = j

/-- The two coins -/
def coins : List (Bool × Bool) := [(false, false), (true, false), (false, true), (true, true)]

/-- The place in the chain -/
def place (n : ℕ) (w : ℕ → V) (v : V) : Option ℕ := (List.range (n + 1)).find? fun k => decide (w k = v)

/-- What the `k`-th variable of the chain is, in the first (`m = false`) or the second network -/
def gate (m : Bool) (n : ℕ) (w u : ℕ → V) : ℕ → (V → Bool × Bool) → Bool
  | 0, a => (a (u 0)).1
  | j + 1, a => xor (if j = 0 && m then false else (a (u j)).1)
      (if j + 1 = n then xor (a (u j)).2 (if m then false else (a (w 0)).1) else (a (u (j + 1))).1)

/-- The networks -/
def bowNet (K : Type) [Field K] (m : Bool) (g : DiGraph V) (n : ℕ) (w u : ℕ → V) : BN V (Bool × Bool) K where
  nodes := g.nodes
  parents := g.pred
  states v := if g.pred v = [] then coins else if (place n w v).isSome then [(false, false), (true, false)] else [(false, false)]
  table v a := if g.pred v = [] then (if (a v).2 then 6⁻¹ else 3⁻¹) else match place n w v with
    | some k => if a v = (gate m n w u k a, false) then 1 else 0
    | none => 1

namespace Bow
variable {K : Type} [Field K] [LinearOrder K] [IsStrictOrderedRing K] {g : DiGraph V} {n : ℕ} {w u : ℕ → V} {m : Bool}

theorem place_w (h : Bow g n w u) {k : ℕ} (hk : k ≤ n) : place n w (w k) = some k := by
  rw [place]
  cases hf : (List.range (n + 1)).find? fun j => decide (w j = w k) with
  | none =>
    have := List.find?_eq_none.1 hf k (List.mem_range.2 (by omega))
    simp at this
  | some j =>
    have h1 := List.find?_some hf
    have h2 := List.mem_range.1 (List.mem_of_find?_eq_some hf)
    rw [h.wInj j (by omega) k hk (by simpa using h1)]

theorem place_some {v : V} {k : ℕ} (h : place n w v = some k) : k ≤ n ∧ w k = v := by
  have h1 := List.find?_some h
  have h2 := List.mem_range.1 (List.mem_of_find?_eq_some h)
  exact ⟨by omega, by simpa using h1⟩

theorem inner (h : Bow g n w u) {k : ℕ} (hk : k ≤ n) : g.pred (w k) ≠ [] := by
  have : ∃ p, p ∈ g.pred (w k) := by
    rcases Nat.lt_or_ge k n with hlt | hge
    · exact ⟨u k, DiGraph.mem_pred.2 (h.left k hlt)⟩
    · have hp := h.pos
      have : k = n - 1 + 1 := by omega
      rw [this]
      exact ⟨u (n - 1), DiGraph.mem_pred.2 (h.right (n - 1) (by omega))⟩
  obtain ⟨p, hp⟩ := this
  exact List.ne_nil_of_mem hp

theorem w_mem (h : Bow g n w u) {k : ℕ} (hk : k ≤ n) : w k ∈ g.nodes := by
  obtain ⟨p, hp⟩ := List.exists_mem_of_ne_nil _ (h.inner hk)
  exact (h.wf.ends _ (DiGraph.mem_pred.1 hp)).2

theorem u_mem (h : Bow g n w u) {k : ℕ} (hk : k < n) : u k ∈ g.nodes := (h.wf.ends _ (h.left k hk)).1

theorem states_root {v : V} (hv : g.pred v = []) : (bowNet K m g n w u).states v = coins := if_pos hv

theorem states_w (h : Bow g n w u) {k : ℕ} (hk : k ≤ n) : (bowNet K m g n w u).states (w k) = [(false, false), (true, false)] := by
  show (if g.pred (w k) = [] then _ else _) = _
  rw [if_neg (h.inner hk), h.place_w hk]; rfl

theorem states_other {v : V} (hv : g.pred v ≠ []) (hp : place n w v = none) : (bowNet K m g n w u).states v = [(false, false)] := by
  show (if g.pred v = [] then _ else _) = _
  rw [if_neg hv, hp]; rfl

theorem table_root {v : V} (hv : g.pred v = []) (a : V → Bool × Bool) : (bowNet K m g n w u).table v a = if (a v).2 then 6⁻¹ else 3⁻¹ := if_pos hv

theorem table_w (h : Bow g n w u) {k : ℕ} (hk : k ≤ n) (a : V → Bool × Bool) :
    (bowNet K m g n w u).table (w k) a = if a (w k) = (gate m n w u k a, false) then 1 else 0 := by
  show (if g.pred (w k) = [] then _ else _) = _
  rw [if_neg (h.inner hk), h.place_w hk]

theorem table_other {v : V} (hv : g.pred v ≠ []) (hp : place n w v = none) (a : V → Bool × Bool) : (bowNet K m g n w u).table v a = 1 := by
  show (if g.pred v = [] then _ else _) = _
  rw [if_neg hv, hp]

/-- Roots, variables of the chain, others -/
theorem cases (v : V) (P : Prop) (h1 : g.pred v = [] → P) (h2 : ∀ k ≤ n, v = w k → P) (h3 : g.pred v ≠ [] → place n w v = none → P) : P := by
  by_cases hv : g.pred v = []
  · exact h1 hv
  · cases hp : place n w v with
    | none => exact h3 hv hp
    | some k => exact h2 k (place_some hp).1 (place_some hp).2.symm

theorem gate_congr (h : Bow g n w u) {k : ℕ} (hk : k ≤ n) {a b : V → Bool × Bool} (hab : ∀ p ∈ g.pred (w k), a p = b p) :
    gate m n w u k a = gate m n w u k b := by
  cases k with
  | zero => rw [gate, gate, hab _ (DiGraph.mem_pred.2 (h.left 0 h.pos))]
  | succ j =>
    have e1 := hab _ (DiGraph.mem_pred.2 (h.right j (by omega)))
    rw [gate, gate, e1]
    by_cases hn : j + 1 = n
    · have e2 := hab (w 0) (DiGraph.mem_pred.2 (hn ▸ h.edge))
      rw [if_pos hn, if_pos hn, e2]
    · rw [if_neg hn, if_neg hn, hab _ (DiGraph.mem_pred.2 (h.left (j + 1) (by omega)))]

theorem not_self (h : Bow g n w u) (v : V) : v ∉ g.pred v := fun hp => h.acyclic v (.single (DiGraph.mem_pred.1 hp))

theorem valid (h : Bow g n w u) : (bowNet K m g n w u).Valid where
  nodes := h.wf.nodes
  parents := fun v _ p hp => (h.wf.ends _ (DiGraph.mem_pred.1 hp)).1
  acyclic := fun v hv => h.acyclic v (TransGen.mono (fun x y hxy => DiGraph.mem_pred.1 hxy.2) _ _ hv)
  nodupStates := fun v _ => cases (g := g) (n := n) (w := w) v _ (fun hv => by rw [states_root hv]; decide) (fun k hk e => by subst e; rw [h.states_w hk]; decide)
    fun hv hp => by rw [states_other hv hp]; decide
  nonempty := fun v _ => cases (g := g) (n := n) (w := w) v _ (fun hv => by rw [states_root hv]; decide) (fun k hk e => by subst e; rw [h.states_w hk]; decide)
    fun hv hp => by rw [states_other hv hp]; decide
  scope := fun v _ a b hab => cases (g := g) (n := n) (w := w) v _ (fun hv => by rw [table_root hv, table_root hv, hab v List.mem_cons_self])
    (fun k hk e => by
      subst e
      rw [h.table_w hk, h.table_w hk, hab _ List.mem_cons_self, h.gate_congr hk fun p hp => hab p (List.mem_cons_of_mem _ hp)])
    fun hv hp => by rw [table_other hv hp, table_other hv hp]

theorem normalised (h : Bow g n w u) : (bowNet K m g n w u).Normalised := fun v _ a _ => by
  refine cases (g := g) (n := n) (w := w) v _ (fun hv => ?_) (fun k hk e => ?_) fun hv hp => ?_
  · rw [states_root hv, List.map_congr_left fun s _ => table_root hv (upd a v s)]
    simp only [coins, upd_same, List.map_cons, List.map_nil, List.sum_cons, List.sum_nil]
    norm_num
  · subst e
    rw [h.states_w hk, List.map_congr_left fun s _ => h.table_w hk (upd a (w k) s)]
    have e : ∀ s, gate m n w u k (upd a (w k) s) = gate m n w u k a := fun s =>
      h.gate_congr hk fun p hp => upd_ne _ _ fun e => h.not_self _ (e ▸ hp)
    simp only [e, upd_same, List.map_cons, List.map_nil, List.sum_cons, List.sum_nil]
    cases gate m n w u k a <;> simp
  · rw [states_other hv hp, List.map_congr_left fun s _ => table_other hv hp (upd a v s)]
    simp

theorem nonneg (h : Bow g n w u) : (bowNet K m g n w u).NonNeg := fun v _ a _ => by
  refine cases (g := g) (n := n) (w := w) v _ (fun hv => ?_) (fun k hk e => ?_) fun hv hp => ?_
  · rw [table_root hv]
    split <;> norm_num
  · subst e
    rw [h.table_w hk]
    split <;> norm_num
  · rw [table_other hv hp]; exact zero_le_one

theorem equations (h : Bow g n w u) {v : V} (hv : g.pred v ≠ []) (a : V → Bool × Bool) :
    (bowNet K m g n w u).table v a = 0 ∨ (bowNet K m g n w u).table v a = 1 := by
  refine cases (g := g) (n := n) (w := w) v _ (fun hv' => absurd hv' hv) (fun k hk e => ?_) fun hv hp => .inr (table_other hv hp a)
  subst e
  rw [h.table_w hk]
  split
  · exact .inr rfl
  · exact .inl rfl

/-! ### The same observations -/

/-- Turn the first coin -/
def turn (b : Bool) (s : Bool × Bool) : Bool × Bool := (xor s.1 b, s.2)

theorem turn_perm (b : Bool) : (coins.map (turn b)).Perm coins := by cases b <;> decide

theorem mem_range_u (h : Bow g n w u) (l : List ℕ) (hl : ∀ i ∈ l, i < n) {k : ℕ} (hk : k < n) : u k ∈ l.map u ↔ k ∈ l :=
  ⟨fun hm => by
    obtain ⟨j, hj, e⟩ := List.mem_map.1 hm
    rw [← h.uInj j (hl j hj) k hk e]; exact hj, fun hm => List.mem_map_of_mem hm⟩

theorem same_marg (h : Bow g n w u) {o : List V} (ho : ∀ v, v ∈ o ↔ g.pred v ≠ []) {a : V → Bool × Bool} :
    (bowNet K false g n w u).marg o a = (bowNet K true g n w u).marg o a := by
  have hroot : ∀ v ∈ g.nodes.filter (· ∉ o), g.pred v = [] := fun v hv => by
    obtain ⟨h1, h2⟩ := List.mem_filter.1 hv
    by_contra hc
    exact (of_decide_eq_true h2) ((ho v).2 hc)
  have hur : ∀ k < n, u k ∈ g.nodes.filter (· ∉ o) := fun k hk => List.mem_filter.2 ⟨h.u_mem hk, by
    have := mt (ho _).1 (not_not.2 (h.exo k hk))
    simpa using this⟩
  have hwr : ∀ k ≤ n, w k ∉ g.nodes.filter (· ∉ o) := fun k hk hm => h.inner hk (hroot _ hm)
  set F := (List.range' 1 (n - 1)).map u with hF
  have hFm : ∀ k < n, (u k ∈ F ↔ 1 ≤ k) := fun k hk => by
    rw [hF, h.mem_range_u _ (fun i hi => by rw [List.mem_range'_1] at hi; omega) hk, List.mem_range'_1]
    omega
  have := sumOver_change (D := (bowNet K false g n w u).states) (φ := fun v => if v ∈ F then turn (a (w 0)).1 else id) (1 : K)
    (xs := g.nodes.filter (· ∉ o)) (h.wf.nodes.filter _) (f := (bowNet K false g n w u).joint) (g := (bowNet K true g n w u).joint) (a := a) (a' := a)
    (fun v hv => by
      rw [states_root (hroot v hv)]
      by_cases hvF : v ∈ F
      · rw [if_pos hvF]; exact turn_perm _
      · rw [if_neg hvF, List.map_id])
    (fun b b' b1 _ b3 b4 => by
      rw [one_mul]
      have hw : ∀ k ≤ n, b (w k) = b' (w k) := fun k hk => by rw [b1 _ (hwr k hk), b3 _ (hwr k hk)]
      have hu0 : b' (u 0) = b (u 0) := by
        rw [b4 _ (hur 0 h.pos), if_neg]
        · rfl
        · rw [hFm 0 h.pos]; omega
      have hu : ∀ k, 1 ≤ k → k < n → b' (u k) = turn (a (w 0)).1 (b (u k)) := fun k h1 hk => by
        rw [b4 _ (hur k hk), if_pos ((hFm k hk).2 h1)]
      have hnoise : ∀ k < n, (b' (u k)).2 = (b (u k)).2 := fun k hk => by
        rcases Nat.eq_zero_or_pos k with rfl | hp
        · rw [hu0]
        · rw [hu k hp hk]; rfl
      have ha : b (w 0) = a (w 0) := b1 _ (hwr 0 (Nat.zero_le _))
      have hz : ∀ (m : Bool) (c : V → Bool × Bool), c (w 0) ≠ (gate m n w u 0 c, false) → (bowNet K m g n w u).joint c = 0 := fun m c hc =>
        List.prod_eq_zero (List.mem_map.2 ⟨w 0, h.w_mem (Nat.zero_le _), by rw [h.table_w (Nat.zero_le _), if_neg hc]⟩)
      by_cases hx : b (w 0) = (gate false n w u 0 b, false)
      · have hx0 : (a (w 0)).1 = (b (u 0)).1 := by rw [← ha, hx]; rfl
        refine congrArg List.prod (List.map_congr_left fun v hv => ?_)
        refine cases (g := g) (n := n) (w := w) v _ (fun hv' => ?_) (fun k hk e => ?_) fun hv' hp => by rw [table_other hv' hp, table_other hv' hp]
        · rw [table_root hv', table_root hv']
          have hm : v ∈ g.nodes.filter (· ∉ o) := List.mem_filter.2 ⟨hv, by
            have := mt (ho _).1 (not_not.2 hv')
            simpa using this⟩
          rw [b4 v hm]
          by_cases hvF : v ∈ F
          · rw [if_pos hvF]; rfl
          · rw [if_neg hvF]; rfl
        · subst e
          rw [h.table_w hk, h.table_w hk, hw k hk]
          have : gate false n w u k b = gate true n w u k b' := by
            cases k with
            | zero => rw [gate, gate, hu0]
            | succ j =>
              rw [gate, gate, hnoise j (by omega), ha, hx0]
              rcases Nat.eq_zero_or_pos j with rfl | hj
              · by_cases hn : 0 + 1 = n
                · simp only [if_pos hn]
                  cases (b (u 0)).1 <;> cases (b (u 0)).2 <;> rfl
                · simp only [if_neg hn]
                  rw [hu (0 + 1) (by omega) (by omega), turn, hx0]
                  cases (b (u 0)).1 <;> cases (b (u (0 + 1))).1 <;> rfl
              · have hj0 : decide (j = 0) = false := decide_eq_false (by omega)
                simp only [hj0, Bool.false_and, Bool.false_eq_true, if_false]
                rw [hu j hj (by omega), turn, hx0]
                by_cases hn : j + 1 = n
                · simp only [if_pos hn]
                  cases (b (u 0)).1 <;> cases (b (u j)).1 <;> cases (b (u j)).2 <;> rfl
                · simp only [if_neg hn]
                  rw [hu (j + 1) (by omega) (by omega), turn, hx0]
                  cases (b (u 0)).1 <;> cases (b (u j)).1 <;> cases (b (u (j + 1))).1 <;> rfl
          rw [this]
      · rw [hz false b hx, hz true b' fun e => hx ?_]
        rw [hw 0 (Nat.zero_le _), e, gate, gate, hu0])
  rw [one_mul] at this
  exact this

theorem place_u (h : Bow g n w u) {k : ℕ} (hk : k < n) : place (n - 1) u (u k) = some k := by
  rw [place]
  cases hf : (List.range (n - 1 + 1)).find? fun j => decide (u j = u k) with
  | none =>
    have := List.find?_eq_none.1 hf k (List.mem_range.2 (by omega))
    simp at this
  | some j =>
    have h1 := List.find?_some hf
    have h2 := List.mem_range.1 (List.mem_of_find?_eq_some hf)
    rw [h.uInj j (by omega) k hk (by simpa using h1)]

/-- The first coins that give the endogenous variables the values `a` -/
def coin (w : ℕ → V) (a : V → Bool × Bool) : ℕ → Bool
  | 0 => (a (w 0)).1
  | k + 1 => xor (coin w a k) (a (w (k + 1))).1

/-- Exogenous values that give the endogenous variables the values `a` -/
def solve (g : DiGraph V) (n : ℕ) (w u : ℕ → V) (a : V → Bool × Bool) (v : V) : Bool × Bool :=
  if g.pred v = [] then match place (n - 1) u v with
    | some k => (coin w a k, if k + 1 = n then xor (a (w n)).1 (xor (coin w a k) (a (w 0)).1) else false)
    | none => (false, false)
  else a v

theorem mem_coins (s : Bool × Bool) : s ∈ coins := by obtain ⟨a, b⟩ := s; cases a <;> cases b <;> decide

theorem marg_pos (h : Bow g n w u) {o : List V} (ho : ∀ v, v ∈ o ↔ g.pred v ≠ []) {a : V → Bool × Bool}
    (ha : ∀ v ∈ o, a v ∈ (bowNet K false g n w u).states v) : 0 < (bowNet K false g n w u).marg o a := by
  have hsi : ∀ v, g.pred v ≠ [] → solve g n w u a v = a v := fun v hv => if_neg hv
  have hsu : ∀ k < n, solve g n w u a (u k) = (coin w a k, if k + 1 = n then xor (a (w n)).1 (xor (coin w a k) (a (w 0)).1) else false) := fun k hk => by
    rw [solve, if_pos (h.exo k hk), h.place_u hk]
  rw [(h.valid (K := K) (m := false)).marg_dep o a (solve g n w u a) fun v hv => (hsi v ((ho v).1 hv)).symm]
  refine BN.marg_pos h.valid h.nonneg o (fun v hv => ?_) (List.prod_pos fun x hx => ?_)
  · by_cases hp : g.pred v = []
    · rw [states_root hp]; exact mem_coins _
    · rw [hsi v hp]; exact ha v ((ho v).2 hp)
  · obtain ⟨v, hv, rfl⟩ := List.mem_map.1 hx
    refine cases (g := g) (n := n) (w := w) v _ (fun hv' => ?_) (fun k hk e => ?_) fun hv' hp => by rw [table_other hv' hp]; exact one_pos
    · rw [table_root hv']
      split <;> norm_num
    · subst e
      rw [h.table_w hk, if_pos]
      · exact one_pos
      · have h2 := ha _ ((ho _).2 (h.inner hk))
        rw [h.states_w hk] at h2
        have h2' : (a (w k)).2 = false := by
          rcases (by simpa using h2 : a (w k) = (false, false) ∨ a (w k) = (true, false)) with e | e <;> rw [e]
        rw [hsi _ (h.inner hk)]
        refine Prod.ext ?_ h2'
        show (a (w k)).1 = gate false n w u k (solve g n w u a)
        cases k with
        | zero => rw [gate, hsu 0 h.pos]; rfl
        | succ j =>
          simp only [gate, hsu j (by omega), Bool.and_false, Bool.false_eq_true, if_false, hsi _ (h.inner (Nat.zero_le _))]
          by_cases hn : j + 1 = n
          · simp only [if_pos hn]
            rw [hn]
            cases coin w a j <;> cases (a (w n)).1 <;> cases (a (w 0)).1 <;> rfl
          · simp only [if_neg hn, hsu (j + 1) (by omega), coin]
            cases coin w a j <;> cases (a (w (j + 1))).1 <;> rfl

/-! ### Different effects -/

theorem agrees_one {S : Type} [DecidableEq S] {x : V} {s : S} {a : V → S} : BN.Agrees [(x, s)] a ↔ a x = s := by
  constructor
  · intro h; exact h x s (by simp [Dict.get?])
  · intro h v t hv
    by_cases e : x = v
    · subst e
      simp [Dict.get?] at hv
      rw [h, hv]
    · simp [Dict.get?, e] at hv

/-- In the first network the last variable is a fair coin after the intervention, whatever the others are. -/
theorem effect_first (h : Bow g n w u) {T : List V} (hT : ∀ v, v ∈ T ↔ g.pred v ≠ [] ∧ v ≠ w 0) (s : Bool × Bool) (a : V → Bool × Bool) :
    (bowNet K false g n w u).doMarg [(w 0, s)] T a = (bowNet K false g n w u).doMarg [(w 0, s)] T (upd a (w n) (turn true (a (w n)))) := by
  have hxs : ∀ v ∈ g.nodes.filter (· ∉ T), g.pred v = [] ∨ v = w 0 := fun v hv => by
    have h2 := of_decide_eq_true (List.mem_filter.1 hv).2
    by_contra hc
    push Not at hc
    exact h2 ((hT v).2 hc)
  have hur : ∀ v ∈ g.nodes, g.pred v = [] → v ∈ g.nodes.filter (· ∉ T) := fun v hv hp => List.mem_filter.2 ⟨hv, by
    have : v ∉ T := fun hm => ((hT v).1 hm).1 hp
    simpa using this⟩
  have hwr : ∀ k ≤ n, 1 ≤ k → w k ∉ g.nodes.filter (· ∉ T) := fun k hk h1 hm => by
    rcases hxs _ hm with e | e
    · exact h.inner hk e
    · have := h.wInj k hk 0 (Nat.zero_le _) e
      omega
  have hx0 : w 0 ∈ g.nodes.filter (· ∉ T) := List.mem_filter.2 ⟨h.w_mem (Nat.zero_le _), by
    have : w 0 ∉ T := fun hm => ((hT _).1 hm).2 rfl
    simpa using this⟩
  set F := (List.range n).map u with hF
  have hFm : ∀ k < n, u k ∈ F := fun k hk => List.mem_map_of_mem (List.mem_range.2 hk)
  have hF0 : w 0 ∉ F := fun hm => by
    obtain ⟨k, hk, e⟩ := List.mem_map.1 hm
    have := h.exo k (List.mem_range.1 hk)
    rw [e] at this
    exact h.inner (Nat.zero_le _) this
  have := sumOver_change (D := (bowNet K false g n w u).states) (φ := fun v => if v ∈ F then turn true else id) (1 : K)
    (xs := g.nodes.filter (· ∉ T)) (h.wf.nodes.filter _) (f := (bowNet K false g n w u).doJoint [(w 0, s)]) (g := (bowNet K false g n w u).doJoint [(w 0, s)])
    (a := a) (a' := upd a (w n) (turn true (a (w n))))
    (fun v hv => by
      by_cases hvF : v ∈ F
      · rw [if_pos hvF]
        obtain ⟨k, hk, rfl⟩ := List.mem_map.1 hvF
        rw [states_root (h.exo k (List.mem_range.1 hk))]; exact turn_perm _
      · rw [if_neg hvF, List.map_id])
    (fun b b' b1 _ b3 b4 => by
      rw [one_mul]
      have hb0 : b' (w 0) = b (w 0) := by rw [b4 _ hx0, if_neg hF0]; rfl
      have hu : ∀ k < n, b' (u k) = turn true (b (u k)) := fun k hk => by rw [b4 _ (hur _ (h.u_mem hk) (h.exo k hk)), if_pos (hFm k hk)]
      rw [BN.doJoint, BN.doJoint]
      simp only [agrees_one, hb0]
      congr 1
      refine congrArg List.prod (List.map_congr_left fun v hv => ?_)
      obtain ⟨hv, hvd⟩ := List.mem_filter.1 hv
      have hvx : v ≠ w 0 := by simpa [Dict.keys] using hvd
      refine cases (g := g) (n := n) (w := w) v _ (fun hv' => ?_) (fun k hk e => ?_) fun hv' hp => by rw [table_other hv' hp, table_other hv' hp]
      · rw [table_root hv', table_root hv', b4 v (hur v hv hv')]
        by_cases hvF : v ∈ F
        · rw [if_pos hvF]; rfl
        · rw [if_neg hvF]; rfl
      · subst e
        have hk1 : 1 ≤ k := by
          rcases Nat.eq_zero_or_pos k with rfl | hp
          · exact absurd rfl hvx
          · exact hp
        rw [h.table_w hk, h.table_w hk, b1 _ (hwr k hk hk1), b3 _ (hwr k hk hk1)]
        obtain ⟨j, rfl⟩ := Nat.exists_eq_add_of_le' hk1
        simp only [gate, Bool.and_false, Bool.false_eq_true, if_false, hu j (by omega), hb0]
        by_cases hn : j + 1 = n
        · simp only [if_pos hn]
          rw [hn, upd_same]
          obtain ⟨p, q⟩ := a (w n)
          simp only [turn, Prod.mk.injEq]
          refine if_congr ?_ rfl rfl
          generalize (b (u j)).1 = c1; generalize (b (u j)).2 = c2; generalize (b (w 0)).1 = c3
          revert p q c1 c2 c3; decide
        · have hne : w (j + 1) ≠ w n := fun e => hn (h.wInj _ hk _ le_rfl e)
          simp only [if_neg hn, hu (j + 1) (by omega)]
          rw [upd_ne _ _ hne]
          obtain ⟨p, q⟩ := a (w (j + 1))
          simp only [turn, Prod.mk.injEq]
          refine if_congr ?_ rfl rfl
          generalize (b (u j)).1 = c1; generalize (b (u (j + 1))).1 = c2
          revert p q c1 c2; decide)
  rw [one_mul] at this
  exact this

/-- In the second network it is not. -/
theorem effect_second (h : Bow g n w u) {T : List V} (hT : ∀ v, v ∈ T ↔ g.pred v ≠ [] ∧ v ≠ w 0) (s : Bool × Bool) {a : V → Bool × Bool}
    (ha : ∀ k ≤ n, 1 ≤ k → a (w k) = (false, false)) :
    (bowNet K true g n w u).doMarg [(w 0, s)] T a = 2 * (bowNet K true g n w u).doMarg [(w 0, s)] T (upd a (w n) (true, false)) := by
  have hxs : ∀ v ∈ g.nodes.filter (· ∉ T), g.pred v = [] ∨ v = w 0 := fun v hv => by
    have h2 := of_decide_eq_true (List.mem_filter.1 hv).2
    by_contra hc
    push Not at hc
    exact h2 ((hT v).2 hc)
  have hur : ∀ v ∈ g.nodes, g.pred v = [] → v ∈ g.nodes.filter (· ∉ T) := fun v hv hp => List.mem_filter.2 ⟨hv, by
    have : v ∉ T := fun hm => ((hT v).1 hm).1 hp
    simpa using this⟩
  have hwr : ∀ k ≤ n, 1 ≤ k → w k ∉ g.nodes.filter (· ∉ T) := fun k hk h1 hm => by
    rcases hxs _ hm with e | e
    · exact h.inner hk e
    · have := h.wInj k hk 0 (Nat.zero_le _) e
      omega
  have hx0 : w 0 ∈ g.nodes.filter (· ∉ T) := List.mem_filter.2 ⟨h.w_mem (Nat.zero_le _), by
    have : w 0 ∉ T := fun hm => ((hT _).1 hm).2 rfl
    simpa using this⟩
  have hnp := h.pos
  have hl : n - 1 < n := by omega
  have hul : u (n - 1) ≠ w 0 := fun e => h.inner (Nat.zero_le _) (e ▸ h.exo _ hl)
  exact sumOver_change (D := (bowNet K true g n w u).states) (φ := fun v => if v = u (n - 1) then (fun s => (s.1, !s.2)) else id) (2 : K)
    (xs := g.nodes.filter (· ∉ T)) (h.wf.nodes.filter _)
    (fun v hv => by
      by_cases hvF : v = u (n - 1)
      · rw [if_pos hvF, hvF, states_root (h.exo _ hl)]; decide
      · rw [if_neg hvF, List.map_id])
    (fun b b' b1 _ b3 b4 => by
      have hb0 : b' (w 0) = b (w 0) := by rw [b4 _ hx0, if_neg (Ne.symm hul)]; rfl
      have hu : ∀ k < n, k ≠ n - 1 → b' (u k) = b (u k) := fun k hk hne => by
        rw [b4 _ (hur _ (h.u_mem hk) (h.exo k hk)), if_neg fun e => hne (h.uInj k hk _ hl e)]; rfl
      have hul' : b' (u (n - 1)) = ((b (u (n - 1))).1, !(b (u (n - 1))).2) := by rw [b4 _ (hur _ (h.u_mem hl) (h.exo _ hl)), if_pos rfl]
      have hu1 : ∀ k < n, (b' (u k)).1 = (b (u k)).1 := fun k hk => by
        by_cases hne : k = n - 1
        · rw [hne, hul']
        · rw [hu k hk hne]
      have hbw : ∀ k ≤ n, 1 ≤ k → b (w k) = (false, false) := fun k hk h1 => by rw [b1 _ (hwr k hk h1), ha k hk h1]
      have hin : ∀ v ∈ g.nodes, v ≠ w 0 → v ≠ u (n - 1) → (bowNet K true g n w u).table v b = (bowNet K true g n w u).table v b' := by
        intro v hv hvx hvu
        refine cases (g := g) (n := n) (w := w) v _ (fun hv' => ?_) (fun k hk e => ?_) fun hv' hp => by rw [table_other hv' hp, table_other hv' hp]
        · rw [table_root hv', table_root hv', b4 v (hur v hv hv'), if_neg hvu]; rfl
        · subst e
          have hk1 : 1 ≤ k := by
            rcases Nat.eq_zero_or_pos k with rfl | hp
            · exact absurd rfl hvx
            · exact hp
          rw [h.table_w hk, h.table_w hk, hbw k hk hk1, b3 _ (hwr k hk hk1)]
          obtain ⟨j, rfl⟩ := Nat.exists_eq_add_of_le' hk1
          simp only [gate, Bool.and_true, if_true, hu1 j (by omega)]
          by_cases hn : j + 1 = n
          · have hjn : j = n - 1 := by omega
            simp only [if_pos hn]
            rw [hn, upd_same, hjn, hul']
            refine if_congr ?_ rfl rfl
            simp only [Prod.mk.injEq]
            generalize (if decide (n - 1 = 0) = true then false else (b (u (n - 1))).1) = c1
            generalize (b (u (n - 1))).2 = c2
            revert c1 c2; decide
          · have hne : w (j + 1) ≠ w n := fun e => hn (h.wInj _ hk _ le_rfl e)
            simp only [if_neg hn, hu1 (j + 1) (by omega)]
            rw [upd_ne _ _ hne, ha _ hk hk1]
      rw [BN.doJoint, BN.doJoint]
      simp only [agrees_one, hb0]
      by_cases hag : b (w 0) = s
      · rw [if_pos hag, if_pos hag, BN.trunc, BN.trunc]
        have hmem : ∀ v, v ∈ (bowNet K true g n w u).nodes.filter (· ∉ Dict.keys [(w 0, s)]) ↔ v ∈ g.nodes ∧ v ≠ w 0 := fun v => by
          rw [List.mem_filter]; simp [Dict.keys, bowNet]
        cases hnoise : (b (u (n - 1))).2 with
        | false =>
          refine prod_map_one_differs (h.wf.nodes.filter _) ((hmem _).2 ⟨h.u_mem hl, hul⟩) ?_ fun v hv hvu => hin v ((hmem v).1 hv).1 ((hmem v).1 hv).2 hvu
          rw [table_root (h.exo _ hl), table_root (h.exo _ hl), hul', hnoise]
          norm_num
        | true =>
          have hz : ∃ k ≤ n, 1 ≤ k ∧ (bowNet K true g n w u).table (w k) b = 0 := by
            by_contra hc
            push Not at hc
            have hgate : ∀ k ≤ n, 1 ≤ k → gate true n w u k b = false := fun k hk h1 => by
              have := hc k hk h1
              rw [h.table_w hk, hbw k hk h1] at this
              by_contra hg
              exact this (if_neg fun e => hg (Prod.mk.inj e).1.symm)
            have hzero : ∀ k, 1 ≤ k → k < n → (b (u k)).1 = false := by
              intro k h1
              induction k, h1 using Nat.le_induction with
              | base =>
                intro hk
                have := hgate 1 (by omega) le_rfl
                simpa [gate, show ¬ (1 = n) by omega] using this
              | succ j hj ih =>
                intro hk
                have := hgate (j + 1) (by omega) (by omega)
                simpa [gate, show ¬ (j + 1 = n) by omega, ih (by omega)] using this
            have := hgate n le_rfl h.pos
            obtain ⟨j, rfl⟩ := Nat.exists_eq_add_of_le' h.pos
            simp only [Nat.add_sub_cancel] at hnoise
            simp only [gate, Bool.and_true, if_true, hnoise] at this
            rcases Nat.eq_zero_or_pos j with rfl | hj
            · simp at this
            · rw [hzero j hj (by omega)] at this
              simp at this
          obtain ⟨k, hk, h1, hk0⟩ := hz
          have hne : w k ≠ w 0 := fun e => by
            have := h.wInj k hk 0 (Nat.zero_le _) e
            omega
          have hku : w k ≠ u (n - 1) := fun e => h.inner hk (e ▸ h.exo _ hl)
          rw [List.prod_eq_zero (List.mem_map.2 ⟨w k, (hmem _).2 ⟨h.w_mem hk, hne⟩, hk0⟩),
            List.prod_eq_zero (List.mem_map.2 ⟨w k, (hmem _).2 ⟨h.w_mem hk, hne⟩, (hin _ (h.w_mem hk) hne hku).symm.trans hk0⟩), mul_zero]
      · rw [if_neg hag, if_neg hag, mul_zero])

theorem zero_mem (h : Bow g n w u) (v : V) : (false, false) ∈ (bowNet K m g n w u).states v :=
  cases (g := g) (n := n) (w := w) v _ (fun hv => by rw [states_root hv]; decide) (fun k hk e => by subst e; rw [h.states_w hk]; decide)
    fun hv hp => by rw [states_other hv hp]; decide

/-- After the intervention the two networks differ. -/
theorem differ (h : Bow g n w u) {T : List V} (hT : ∀ v, v ∈ T ↔ g.pred v ≠ [] ∧ v ≠ w 0) :
    ∃ a : V → Bool × Bool, (∀ v ∈ g.nodes, a v ∈ (bowNet K false g n w u).states v) ∧
      (bowNet K false g n w u).doMarg [(w 0, (false, false))] T a ≠ (bowNet K true g n w u).doMarg [(w 0, (false, false))] T a := by
  let a : V → Bool × Bool := fun _ => (false, false)
  have hk : ∀ v ∈ Dict.keys [(w 0, ((false, false) : Bool × Bool))], v ∈ (bowNet K false g n w u).nodes := fun v hv => by
    have : v = w 0 := by simpa [Dict.keys] using hv
    rw [this]; exact h.w_mem (Nat.zero_le _)
  have hpos : 0 < (bowNet K false g n w u).doMarg [(w 0, (false, false))] T a := by
    rw [← BN.doMarg_eq hk]
    refine BN.marg_pos (h.valid.doBN _) (h.nonneg.doBN _) T (fun v hv => h.zero_mem (K := K) (m := false) v) ?_
    have hag : BN.Agrees [(w 0, ((false, false) : Bool × Bool))] a := agrees_one.2 rfl
    rw [BN.doBN_joint hk, BN.doJoint, if_pos hag]
    refine List.prod_pos fun x hx => ?_
    obtain ⟨v, hv, rfl⟩ := List.mem_map.1 hx
    refine cases (g := g) (n := n) (w := w) v _ (fun hv' => ?_) (fun k hk e => ?_) fun hv' hp => by rw [table_other hv' hp]; exact one_pos
    · rw [table_root hv']
      split <;> norm_num
    · subst e
      rw [h.table_w hk, if_pos]
      · exact one_pos
      · cases k <;> simp [gate, a]
  have h1 := h.effect_first (K := K) hT (false, false) a
  have h2 := h.effect_second (K := K) hT (false, false) (a := a) fun _ _ _ => rfl
  by_contra hc
  push Not at hc
  have e1 := hc a fun v hv => h.zero_mem v
  have e2 := hc (upd a (w n) (true, false)) fun v hv => by
    by_cases e : v = w n
    · subst e; rw [upd_same, h.states_w le_rfl]; decide
    · rw [upd_ne _ _ e]; exact h.zero_mem v
  have ht : turn true (a (w n)) = (true, false) := rfl
  rw [ht, e2] at h1
  rw [e1, h2] at h1
  rw [e1, h2] at hpos
  linarith

end Bow
end Verif
