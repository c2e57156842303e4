import Verif.Inference.Elim
import Verif.Factor.Rep

/-!
# Invariant of the elimination loop: helper lemmas

Every factor of the list stands for a block of tables, summed over those of the block's own
variables that have been eliminated; the blocks are disjoint.  Blocks of which nothing remains
are dropped by the loop; they sum to one.
-/

set_option linter.unusedSectionVars false
set_option linter.unusedSimpArgs false

namespace Verif
namespace Elim

variable {V S K : Type} [DecidableEq V] [DecidableEq S] [Field K] [LinearOrder K] {I : StoreImpl V S (Fl K)}

/-- variables that the tables of the nodes `L` look at -/
def scopes (pa : V → List V) (L : List V) : List V := L.flatMap fun u => u :: pa u

theorem mem_scopes {pa : V → List V} {L : List V} {v : V} : v ∈ scopes pa L ↔ ∃ u ∈ L, v ∈ u :: pa u := by
  simp [scopes]

/-- the function that the block `S` stands for once `X` have been eliminated -/
def blockFn (D : V → List S) (φ : V → (V → S) → K) (X B : List V) : (V → S) → K :=
  sumOver D (B.filter (· ∈ X)) (prodT φ B)

/-- Sums over separate blocks multiply to the sum over their union. -/
theorem prod_blocks {D : V → List S} {pa : V → List V} {φ : V → (V → S) → K} {N : List V} (hT : Tables D pa φ N)
    {X : List V} (Bs : List (List V)) (hnd : Bs.flatten.Nodup) (hsub : ∀ v ∈ Bs.flatten, v ∈ N)
    (hsep : ∀ B ∈ Bs, ∀ x ∈ B, x ∈ X → ∀ u ∈ Bs.flatten, u ∉ B → x ∉ u :: pa u) (a : V → S) :
    (Bs.map fun B => blockFn D φ X B a).prod = blockFn D φ X Bs.flatten a := by
  induction Bs with
  | nil => simp [blockFn]
  | cons B Bs ih =>
    rw [List.flatten_cons] at hnd hsub
    have hnd' := List.nodup_append'.1 hnd
    have hBB : ∀ C ∈ Bs, ∀ v ∈ C, v ∉ B := by
      intro C hC v hv hvB
      exact hnd'.2.2 hvB (List.mem_flatten.2 ⟨C, hC, hv⟩)
    rw [List.map_cons, List.prod_cons, List.flatten_cons, ih hnd'.2.1]
    · simp only [blockFn, List.filter_append]
      have e : ∀ b, prodT φ (B ++ Bs.flatten) b = prodT φ B b * prodT φ Bs.flatten b := prodT_append φ _ _
      rw [sumOver_congr' e]
      symm
      refine sumOver_mul (vs := scopes pa B) (ws := scopes pa Bs.flatten) ?_ ?_ ?_ ?_ a
      · exact DependsOn.prodT (sc := fun u => u :: pa u) fun v hv => hT.scope v (hsub v (List.mem_append_left _ hv))
      · exact DependsOn.prodT (sc := fun u => u :: pa u) fun v hv => hT.scope v (hsub v (List.mem_append_right _ hv))
      · intro y hy hys
        obtain ⟨hy1, hy2⟩ := List.mem_filter.1 hy
        obtain ⟨C, hC, hyC⟩ := List.mem_flatten.1 hy1
        obtain ⟨u, hu, hyu⟩ := mem_scopes.1 hys
        refine hsep C (List.mem_cons_of_mem _ hC) y hyC (by simpa using hy2) u ?_ ?_ hyu
        · rw [List.flatten_cons]; exact List.mem_append_left _ hu
        · intro huC; exact hBB C hC u huC hu
      · intro y hy hys
        obtain ⟨hy1, hy2⟩ := List.mem_filter.1 hy
        obtain ⟨u, hu, hyu⟩ := mem_scopes.1 hys
        refine hsep B List.mem_cons_self y hy1 (by simpa using hy2) u ?_ ?_ hyu
        · rw [List.flatten_cons]; exact List.mem_append_right _ hu
        · intro huB; exact hnd'.2.2 huB hu
    · exact fun v hv => hsub v (List.mem_append_right _ hv)
    · intro C hC x hx hX u hu huC
      exact hsep C (List.mem_cons_of_mem _ hC) x hx hX u (by rw [List.flatten_cons]; exact List.mem_append_right _ hu) huC

/-- The invariant: `X` have been eliminated, `bs` are the factors with their blocks and `Z` are the nodes whose
blocks have been dropped. -/
structure Inv (D : V → List S) (pa : V → List V) (φ : V → (V → S) → K) (N X : List V)
    (bs : List (Factor I × List V)) (Z : List V) : Prop where
  part : ((bs.map Prod.snd).flatten ++ Z).Perm N
  gone : ∀ z ∈ Z, z ∈ X
  rep : ∀ b ∈ bs, Factor.Rep D b.1 (blockFn D φ X b.2)
  vars : ∀ b ∈ bs, ∀ v, v ∈ b.1.vars ↔ v ∈ scopes pa b.2 ∧ v ∉ X
  left : ∀ b ∈ bs, ∀ v, v ∈ b.1.leftVars ↔ v ∈ b.2 ∧ v ∉ X
  sep : ∀ b ∈ bs, ∀ x ∈ b.2, x ∈ X → ∀ u ∈ (bs.map Prod.snd).flatten, u ∉ b.2 → x ∉ u :: pa u
  sepZ : ∀ z ∈ Z, ∀ u ∈ (bs.map Prod.snd).flatten, z ∉ u :: pa u

theorem mem_live {bs : List (Factor I × List V)} {u : V} :
    u ∈ (bs.map Prod.snd).flatten ↔ ∃ b ∈ bs, u ∈ b.2 := by
  rw [← List.flatMap_def, List.mem_flatMap]

section
variable {D : V → List S} {pa : V → List V} {φ : V → (V → S) → K} {N X : List V}
  {bs : List (Factor I × List V)} {Z : List V}

theorem Inv.live_sub (h : Inv D pa φ N X bs Z) : ∀ v ∈ (bs.map Prod.snd).flatten, v ∈ N := fun v hv =>
  h.part.mem_iff.1 (List.mem_append_left _ hv)

theorem Inv.exists_block (h : Inv D pa φ N X bs Z) {x : V} (hx : x ∈ N) (hX : x ∉ X) :
    ∃ b ∈ bs, x ∈ b.2 := by
  rcases List.mem_append.1 (h.part.mem_iff.2 hx) with h1 | h1
  · exact mem_live.1 h1
  · exact absurd (h.gone x h1) hX

/-- Product of all live factors. -/
theorem Inv.total (hT : Tables D pa φ N) (h : Inv D pa φ N X bs Z) (hX : X.Nodup) (hXN : ∀ x ∈ X, x ∈ N) (a : V → S) :
    (bs.map fun b => blockFn D φ X b.2 a).prod = sumOver D X (prodT φ N) a := by
  set L := (bs.map Prod.snd).flatten with hL
  have hndall : (L ++ Z).Nodup := h.part.nodup_iff.2 hT.nodup
  have hnd := List.nodup_append'.1 hndall
  have e1 := prod_blocks hT (X := X) (bs.map Prod.snd) hnd.1 h.live_sub (by
    intro B hB x hx hxX u hu huB
    obtain ⟨b, hb, rfl⟩ := List.mem_map.1 hB
    exact h.sep b hb x hx hxX u hu huB) a
  rw [List.map_map] at e1
  rw [show (bs.map fun b => blockFn D φ X b.2 a) = bs.map ((fun B => blockFn D φ X B a) ∘ Prod.snd) from rfl, e1,
    ← hL]
  have hT' : Tables D pa φ (Z ++ L) := hT.sublist (List.perm_append_comm.nodup_iff.1 hndall) (by
    intro v hv
    exact h.part.mem_iff.1 (List.perm_append_comm.mem_iff.1 hv))
  have hp : X.Perm (L.filter (· ∈ X) ++ Z) := by
    rw [List.perm_ext_iff_of_nodup hX]
    · intro v
      simp only [List.mem_append, List.mem_filter, decide_eq_true_eq]
      constructor
      · intro hv
        rcases List.mem_append.1 (h.part.mem_iff.2 (hXN v hv)) with h1 | h1
        · exact .inl ⟨h1, hv⟩
        · exact .inr h1
      · rintro (h1 | h1)
        · exact h1.2
        · exact h.gone v h1
    · refine List.nodup_append'.2 ⟨hnd.1.filter _, hnd.2.1, ?_⟩
      intro v hv hz
      exact hnd.2.2 (List.mem_filter.1 hv).1 hz
  rw [sumOver_perm hp hX, sumOver_append, blockFn]
  refine sumOver_congr' (fun b => ?_) a
  have hpN : N.Perm (Z ++ L) := h.part.symm.trans List.perm_append_comm
  have e2 : ∀ c, prodT φ N c = prodT φ (Z ++ L) c := prodT_perm φ hpN
  rw [sumOver_congr' e2, hT'.sum_barren]
  intro v hv p hp hpZ
  exact h.sepZ p hpZ v hv (List.mem_cons_of_mem _ hp)

end

variable (hI : I.Lawful)
include hI

theorem elimStep_ok {D : V → List S} {pa : V → List V} {φ : V → (V → S) → K} {N X : List V}
    {bs : List (Factor I × List V)} {Z : List V} (hT : Tables D pa φ N) (h : Inv D pa φ N X bs Z)
    {x : V} (hx : x ∈ N) (hxX : x ∉ X) :
    ∃ bs' Z', elimStep (bs.map Prod.fst) x = .ok (bs'.map Prod.fst) ∧ Inv D pa φ N (x :: X) bs' Z' := by
  obtain ⟨b0, hb0, hxb0⟩ := h.exists_block hx hxX
  -- relevant blocks and the others
  set rel := bs.filter (fun b => decide (x ∈ b.1.vars)) with hrel
  set rest := bs.filter (fun b => decide (x ∉ b.1.vars)) with hrest
  have mrel : ∀ b, b ∈ rel ↔ b ∈ bs ∧ x ∈ b.1.vars := by intro b; simp [hrel]
  have mrest : ∀ b, b ∈ rest ↔ b ∈ bs ∧ x ∉ b.1.vars := by intro b; simp [hrest]
  have own : ∀ b ∈ bs, x ∈ b.2 → x ∈ b.1.vars := by
    intro b hb hxb
    exact (h.vars b hb x).2 ⟨mem_scopes.2 ⟨x, hxb, List.mem_cons_self⟩, hxX⟩
  have hb0r : b0 ∈ rel := (mrel b0).2 ⟨hb0, own b0 hb0 hxb0⟩
  have hrelne : rel ≠ [] := List.ne_nil_of_mem hb0r
  have hpart : (rel ++ rest).Perm bs := by
    have := List.filter_append_perm (fun b : Factor I × List V => decide (x ∈ b.1.vars)) bs
    simpa [hrel, hrest, decide_not] using this
  set B := (rel.map Prod.snd).flatten with hB
  set R := (rest.map Prod.snd).flatten with hR
  have hlive : (B ++ R).Perm (bs.map Prod.snd).flatten := by
    rw [hB, hR, ← List.flatten_append, ← List.map_append]
    exact (hpart.map _).flatten
  have hliveNd : (B ++ R).Nodup := by
    have := h.part.nodup_iff.2 hT.nodup
    exact hlive.nodup_iff.2 (List.nodup_append'.1 this).1
  have hBR := List.nodup_append'.1 hliveNd
  have liveB : ∀ u ∈ B, u ∈ (bs.map Prod.snd).flatten := fun u hu => hlive.mem_iff.1 (List.mem_append_left _ hu)
  have liveR : ∀ u ∈ R, u ∈ (bs.map Prod.snd).flatten := fun u hu => hlive.mem_iff.1 (List.mem_append_right _ hu)
  have hxB : x ∈ B := mem_live.2 ⟨b0, hb0r, hxb0⟩
  -- the join
  obtain ⟨join, j1, j2, j3, j4⟩ := Factor.Rep.combineAll hI (D := D) (Prod.fst : Factor I × List V → Factor I)
    (fun b => blockFn D φ X b.2) rel hrelne (fun b hb => h.rep b ((mrel b).1 hb).1)
  have jrep : Factor.Rep D join (blockFn D φ X B) := j2.congr fun a _ => by
    have := prod_blocks hT (X := X) (rel.map Prod.snd) hBR.1 (fun v hv => h.live_sub v (liveB v hv)) (by
      intro C hC y hy hyX u hu huC
      obtain ⟨b, hb, rfl⟩ := List.mem_map.1 hC
      exact h.sep b ((mrel b).1 hb).1 y hy hyX u (liveB u hu) huC) a
    rw [List.map_map] at this
    exact this
  have jvars : ∀ v, v ∈ join.vars ↔ v ∈ scopes pa B ∧ v ∉ X := by
    intro v
    rw [j3]
    constructor
    · rintro ⟨b, hb, hv⟩
      obtain ⟨h1, h2⟩ := (h.vars b ((mrel b).1 hb).1 v).1 hv
      obtain ⟨u, hu, hvu⟩ := mem_scopes.1 h1
      exact ⟨mem_scopes.2 ⟨u, mem_live.2 ⟨b, hb, hu⟩, hvu⟩, h2⟩
    · rintro ⟨h1, h2⟩
      obtain ⟨u, hu, hvu⟩ := mem_scopes.1 h1
      obtain ⟨b, hb, hub⟩ := mem_live.1 hu
      exact ⟨b, hb, (h.vars b ((mrel b).1 hb).1 v).2 ⟨mem_scopes.2 ⟨u, hub, hvu⟩, h2⟩⟩
  have jleft : ∀ v, v ∈ join.leftVars ↔ v ∈ B ∧ v ∉ X := by
    intro v
    rw [j4]
    constructor
    · rintro ⟨b, hb, hv⟩
      obtain ⟨h1, h2⟩ := (h.left b ((mrel b).1 hb).1 v).1 hv
      exact ⟨mem_live.2 ⟨b, hb, h1⟩, h2⟩
    · rintro ⟨h1, h2⟩
      obtain ⟨b, hb, hub⟩ := mem_live.1 h1
      exact ⟨b, hb, (h.left b ((mrel b).1 hb).1 v).2 ⟨hub, h2⟩⟩
  -- the new factor
  have hxj : x ∈ join.vars := (jvars x).2 ⟨mem_scopes.2 ⟨x, hxB, List.mem_cons_self⟩, hxX⟩
  obtain ⟨fnew, f1, f2, _, f3, f4⟩ := jrep.marginalize hI (xs := [x]) (by simpa using hxj) (by simp)
  have frep : Factor.Rep D fnew (blockFn D φ (x :: X) B) := f2.congr fun a _ => by
    rw [blockFn, ← sumOver_append]
    refine sumOver_perm ?_ ?_ _ a
    · rw [List.perm_ext_iff_of_nodup]
      · intro v
        simp only [List.cons_append, List.nil_append, List.mem_cons, List.mem_filter, decide_eq_true_eq]
        constructor
        · rintro (rfl | hv)
          · exact ⟨hxB, .inl rfl⟩
          · exact ⟨hv.1, .inr hv.2⟩
        · rintro ⟨h1, rfl | h2⟩
          · exact .inl rfl
          · exact .inr ⟨h1, h2⟩
      · simp only [List.cons_append, List.nil_append, List.nodup_cons, List.mem_filter, decide_eq_true_eq]
        exact ⟨fun h => hxX h.2, hBR.1.filter _⟩
      · exact hBR.1.filter _
    · simp only [List.cons_append, List.nil_append, List.nodup_cons, List.mem_filter, decide_eq_true_eq]
      exact ⟨fun h => hxX h.2, hBR.1.filter _⟩
  have fvars : ∀ v, v ∈ fnew.vars ↔ v ∈ scopes pa B ∧ v ∉ x :: X := by
    intro v; rw [f3, jvars]; simp; tauto
  have fleft : ∀ v, v ∈ fnew.leftVars ↔ v ∈ B ∧ v ∉ x :: X := by
    intro v; rw [f4, jleft]; simp; tauto
  -- separation of the new block
  have fsep : ∀ y ∈ B, y ∈ x :: X → ∀ u ∈ R, y ∉ u :: pa u := by
    intro y hy hyX u hu hyu
    rcases List.mem_cons.1 hyX with rfl | hyX
    · obtain ⟨b, hb, hub⟩ := mem_live.1 hu
      obtain ⟨hb1, hb2⟩ := (mrest b).1 hb
      exact hb2 ((h.vars b hb1 y).2 ⟨mem_scopes.2 ⟨u, hub, hyu⟩, hxX⟩)
    · obtain ⟨b, hb, hyb⟩ := mem_live.1 hy
      refine h.sep b ((mrel b).1 hb).1 y hyb hyX u (liveR u hu) ?_ hyu
      intro hub
      exact hBR.2.2 (mem_live.2 ⟨b, hb, hub⟩) hu
  -- the other blocks
  have orep : ∀ b ∈ rest, Factor.Rep D b.1 (blockFn D φ (x :: X) b.2) := by
    intro b hb
    obtain ⟨hb1, hb2⟩ := (mrest b).1 hb
    have : b.2.filter (· ∈ x :: X) = b.2.filter (· ∈ X) := by
      refine List.filter_congr fun v hv => ?_
      have hne : v ≠ x := fun e => hb2 (own b hb1 (e ▸ hv))
      simp [hne]
    rw [blockFn, this]
    exact h.rep b hb1
  have ovars : ∀ b ∈ rest, ∀ v, v ∈ b.1.vars ↔ v ∈ scopes pa b.2 ∧ v ∉ x :: X := by
    intro b hb v
    obtain ⟨hb1, hb2⟩ := (mrest b).1 hb
    rw [h.vars b hb1]
    have : v ∈ scopes pa b.2 → v ∉ X → v ≠ x := by
      rintro h1 h2 rfl
      exact hb2 ((h.vars b hb1 v).2 ⟨h1, h2⟩)
    simp; tauto
  have oleft : ∀ b ∈ rest, ∀ v, v ∈ b.1.leftVars ↔ v ∈ b.2 ∧ v ∉ x :: X := by
    intro b hb v
    obtain ⟨hb1, hb2⟩ := (mrest b).1 hb
    rw [h.left b hb1]
    have : v ∈ b.2 → v ≠ x := by
      rintro h1 rfl
      exact hb2 (own b hb1 h1)
    simp; tauto
  have osep : ∀ b ∈ rest, ∀ y ∈ b.2, y ∈ x :: X → ∀ u ∈ (bs.map Prod.snd).flatten, u ∉ b.2 → y ∉ u :: pa u := by
    intro b hb y hy hyX u hu hub
    obtain ⟨hb1, hb2⟩ := (mrest b).1 hb
    rcases List.mem_cons.1 hyX with rfl | hyX
    · exact absurd (own b hb1 hy) hb2
    · exact h.sep b hb1 y hy hyX u hu hub
  have hstep : elimStep (bs.map Prod.fst) x = .ok (if fnew.leftVars.length > 0 then rest.map Prod.fst ++ [fnew]
      else rest.map Prod.fst) := by
    have e1 : (bs.map Prod.fst).filter (fun f => decide (x ∈ f.vars)) = rel.map Prod.fst := by
      rw [List.filter_map]; rfl
    have e2 : (bs.map Prod.fst).filter (fun f => decide (x ∉ f.vars)) = rest.map Prod.fst := by
      rw [List.filter_map]; rfl
    simp only [elimStep, e1, e2, j1]
    show (join.marginalize [x] >>= _) = _
    rw [f1]
    rfl
  have hpartN : (B ++ R ++ Z).Perm N := (hlive.append_right Z).trans h.part
  by_cases hl : fnew.leftVars.length > 0
  · refine ⟨rest ++ [(fnew, B)], Z, ?_, ?_⟩
    · rw [hstep, if_pos hl]; simp
    · have hlv : ((rest ++ [(fnew, B)]).map Prod.snd).flatten = R ++ B := by simp [hR]
      refine ⟨?_, ?_, ?_, ?_, ?_, ?_, ?_⟩
      · rw [hlv]
        exact (List.perm_append_comm.append_right Z).trans hpartN
      · exact fun z hz => List.mem_cons_of_mem _ (h.gone z hz)
      · intro b hb
        rcases List.mem_append.1 hb with hb | hb
        · exact orep b hb
        · simp only [List.mem_singleton] at hb; subst hb; exact frep
      · intro b hb
        rcases List.mem_append.1 hb with hb | hb
        · exact ovars b hb
        · simp only [List.mem_singleton] at hb; subst hb; exact fvars
      · intro b hb
        rcases List.mem_append.1 hb with hb | hb
        · exact oleft b hb
        · simp only [List.mem_singleton] at hb; subst hb; exact fleft
      · intro b hb y hy hyX u hu hub
        rw [hlv] at hu
        rcases List.mem_append.1 hb with hb | hb
        · refine osep b hb y hy hyX u ?_ hub
          exact hlive.mem_iff.1 (List.perm_append_comm.mem_iff.1 hu)
        · simp only [List.mem_singleton] at hb; subst hb
          rcases List.mem_append.1 hu with hu | hu
          · exact fsep y hy hyX u hu
          · exact absurd hu hub
      · intro z hz u hu
        rw [hlv] at hu
        exact h.sepZ z hz u (hlive.mem_iff.1 (List.perm_append_comm.mem_iff.1 hu))
  · refine ⟨rest, B ++ Z, ?_, ?_⟩
    · rw [hstep, if_neg hl]
    · have hnone : ∀ v ∈ B, v ∈ x :: X := by
        intro v hv
        by_contra hc
        have := (fleft v).2 ⟨hv, hc⟩
        have hz : fnew.leftVars = [] := List.length_eq_zero_iff.1 (by omega)
        rw [hz] at this; exact absurd this (by simp)
      refine ⟨?_, ?_, orep, ovars, oleft, ?_, ?_⟩
      · rw [← hR, ← List.append_assoc]
        exact (List.perm_append_comm.append_right Z).trans hpartN
      · intro z hz
        rcases List.mem_append.1 hz with hz | hz
        · exact hnone z hz
        · exact List.mem_cons_of_mem _ (h.gone z hz)
      · intro b hb y hy hyX u hu hub
        exact osep b hb y hy hyX u (liveR u hu) hub
      · intro z hz u hu
        rcases List.mem_append.1 hz with hz | hz
        · exact fsep z hz (hnone z hz) u hu
        · exact h.sepZ z hz u (liveR u hu)

/-- The whole loop. -/
theorem eliminate_ok {D : V → List S} {pa : V → List V} {φ : V → (V → S) → K} {N X : List V}
    {bs : List (Factor I × List V)} {Z : List V} (hT : Tables D pa φ N) (h : Inv D pa φ N X bs Z)
    (order : List V) (ho : ∀ x ∈ order, x ∈ N) (hnd : order.Nodup) (hdis : ∀ x ∈ order, x ∉ X) :
    ∃ bs' Z', eliminate order (bs.map Prod.fst) = .ok (bs'.map Prod.fst) ∧
      Inv D pa φ N (order.reverse ++ X) bs' Z' := by
  induction order generalizing X bs Z with
  | nil => exact ⟨bs, Z, rfl, h⟩
  | cons x order ih =>
    rw [List.nodup_cons] at hnd
    obtain ⟨bs1, Z1, h1, h2⟩ := elimStep_ok hI hT h (ho x List.mem_cons_self) (hdis x List.mem_cons_self)
    obtain ⟨bs2, Z2, h3, h4⟩ := ih h2 (fun y hy => ho y (List.mem_cons_of_mem _ hy)) hnd.2 (by
      intro y hy hyX
      rcases List.mem_cons.1 hyX with rfl | hyX
      · exact hnd.1 hy
      · exact hdis y (List.mem_cons_of_mem _ hy) hyX)
    refine ⟨bs2, Z2, ?_, by simpa using h4⟩
    rw [eliminate, List.foldlM_cons, h1]
    exact h3

/-- Eliminating `order` and multiplying what is left gives the sum of the product of all tables; every node
which is not eliminated is a left variable of the result. -/
theorem eliminate_combine {D : V → List S} {pa : V → List V} {φ : V → (V → S) → K} {N : List V}
    (hT : Tables D pa φ N) (F : V → Factor I) (hrep : ∀ v ∈ N, Factor.Rep D (F v) (φ v))
    (hvars : ∀ v ∈ N, ∀ w, w ∈ (F v).vars ↔ w = v ∨ w ∈ pa v)
    (hleft : ∀ v ∈ N, ∀ w, w ∈ (F v).leftVars ↔ w = v)
    (hclosed : ∀ v ∈ N, ∀ p ∈ pa v, p ∈ N)
    (order : List V) (ho : ∀ x ∈ order, x ∈ N) (hnd : order.Nodup) (hne : ∃ t ∈ N, t ∉ order) :
    ∃ fs joint, eliminate order (N.map F) = .ok fs ∧ Factor.combineAll fs = .ok joint ∧
      Factor.Rep D joint (sumOver D order (prodT φ N)) ∧
      (∀ v, v ∈ joint.vars ↔ v ∈ N ∧ v ∉ order) ∧ (∀ v, v ∈ joint.leftVars ↔ v ∈ N ∧ v ∉ order) := by
  have h0 : Inv (I := I) D pa φ N [] (N.map fun v => (F v, [v])) [] := by
    have hfl : ((N.map fun v => (F v, [v])).map Prod.snd).flatten = N := by
      rw [List.map_map]
      have : (Prod.snd ∘ fun v => (F v, [v])) = fun v : V => [v] := rfl
      rw [this]
      rw [← List.flatMap_def]
      exact List.flatMap_singleton' N
    refine ⟨by rw [hfl]; simp, by simp, ?_, ?_, ?_, ?_, by simp⟩
    · intro b hb
      obtain ⟨v, hv, rfl⟩ := List.mem_map.1 hb
      exact (hrep v hv).congr fun a _ => by simp [blockFn]
    · intro b hb w
      obtain ⟨v, hv, rfl⟩ := List.mem_map.1 hb
      rw [hvars v hv]; simp [mem_scopes]
    · intro b hb w
      obtain ⟨v, hv, rfl⟩ := List.mem_map.1 hb
      rw [hleft v hv]; simp
    · intro b hb x _ hx; simp at hx
  obtain ⟨bs, Z, h1, h2⟩ := eliminate_ok hI hT h0 order ho hnd (by simp)
  rw [List.append_nil] at h2
  obtain ⟨t, ht, hto⟩ := hne
  obtain ⟨b0, hb0, htb⟩ := h2.exists_block ht (by simpa using hto)
  obtain ⟨joint, j1, j2, j3, j4⟩ := Factor.Rep.combineAll hI (D := D) (Prod.fst : Factor I × List V → Factor I)
    (fun b => blockFn D φ order.reverse b.2) bs (List.ne_nil_of_mem hb0) h2.rep
  have e0 : (N.map fun v => (F v, [v])).map Prod.fst = N.map F := by
    rw [List.map_map]; rfl
  rw [e0] at h1
  have hown : ∀ v, v ∈ N → v ∉ order → ∃ b ∈ bs, v ∈ b.2 := fun v hv hvo => h2.exists_block hv (by simpa using hvo)
  refine ⟨_, joint, h1, j1, j2.congr fun a _ => ?_, fun v => ?_, fun v => ?_⟩
  · have := h2.total hT (by simpa using hnd) (by simpa using ho) a
    rw [this]
    exact sumOver_perm (List.reverse_perm order) (by simpa using hnd) _ a
  · rw [j3]
    constructor
    · rintro ⟨b, hb, hv⟩
      obtain ⟨h3, h4⟩ := (h2.vars b hb v).1 hv
      refine ⟨?_, by simpa using h4⟩
      obtain ⟨u, hu, hvu⟩ := mem_scopes.1 h3
      have huN := h2.live_sub u (mem_live.2 ⟨b, hb, hu⟩)
      rcases List.mem_cons.1 hvu with rfl | hvu
      · exact huN
      · exact hclosed u huN v hvu
    · rintro ⟨h3, h4⟩
      obtain ⟨b, hb, hvb⟩ := hown v h3 h4
      exact ⟨b, hb, (h2.vars b hb v).2 ⟨mem_scopes.2 ⟨v, hvb, List.mem_cons_self⟩, by simpa using h4⟩⟩
  · rw [j4]
    constructor
    · rintro ⟨b, hb, hv⟩
      obtain ⟨h3, h4⟩ := (h2.left b hb v).1 hv
      exact ⟨h2.live_sub v (mem_live.2 ⟨b, hb, h3⟩), by simpa using h4⟩
    · rintro ⟨h3, h4⟩
      obtain ⟨b, hb, hvb⟩ := hown v h3 h4
      exact ⟨b, hb, (h2.left b hb v).2 ⟨hvb, by simpa using h4⟩⟩

end Elim
end Verif
