import Verif.Model.Draw
import Verif.Props.Convert

/-!
# Drawings of causal models (C122)
-/

set_option linter.unusedSectionVars false
set_option linter.unusedSimpArgs false

namespace Verif.Props
open Verif

variable {V S α : Type} [DecidableEq V] [DecidableEq S]

/-- The nodes drawn with their colours, the texts written with their colours, and the edges drawn with their styles. -/
def drawnNodes (l : List (DrawCall V)) : List (V × Ink) := l.flatMap fun
  | .nodes vs c => vs.map fun v => (v, c)
  | _ => []
def drawnTexts (l : List (DrawCall V)) : List (V × V × Ink) := l.flatMap fun
  | .labels ps c => ps.flatMap fun p => p.2.toList.map fun t => (p.1, t, c)
  | _ => []
def drawnEdges (l : List (DrawCall V)) : List ((V × V) × Ink × Bool) := l.flatMap fun
  | .edges es c s => es.map fun e => (e, c, s)
  | _ => []

variable {I : StoreImpl V S α} {L : LabelStore V S}

theorem run_all {pos : List V} {l : List (DrawCall V)} (h : ∀ c ∈ l, c.run pos = .ok c) : l.mapM (DrawCall.run pos) = .ok l := by
  induction l with
  | nil => rfl
  | cons c l ih =>
    rw [List.mapM_cons, h c (by simp), ih fun c hc => h c (by simp [hc])]
    rfl

/-- What satisfies a condition and what does not make up a list. -/
theorem split_map {A B : Type} (P : A → Prop) [DecidablePred P] (f g : A → B) (l : List A) :
    (((l.filter fun x => P x).map f) ++ ((l.filter fun x => ¬ P x).map g)).Perm (l.map fun x => if P x then f x else g x) := by
  induction l with
  | nil => exact .nil
  | cons x l ih =>
    by_cases h : P x
    · simpa [h] using ih
    · have := List.perm_middle.trans (ih.cons (g x))
      simpa [h] using this

theorem texts_eq {A : Type} (P : A → Prop) [DecidablePred P] (c : Ink) (l : List A) :
    ((l.map fun v => (v, if P v then some v else none)).flatMap fun p => p.2.toList.map fun t => (p.1, t, c)) =
      (l.filter fun v => P v).map fun v => (v, v, c) := by
  induction l with
  | nil => rfl
  | cons v l ih =>
    rw [List.map_cons, List.flatMap_cons, ih]
    by_cases h : P v <;> simp [h]

/-- **C122** a model whose endogenous variables are nodes is drawn, and the drawing has each variable once, black if it is endogenous
and light gray if not, with its name in the other colour, and each edge once, dashed and gray if it starts at an exogenous variable. -/
theorem C122_drawn {m : SCM I L} (hg : m.base.graph.WF) (he : m.endogenous.Nodup) (hs : ∀ v ∈ m.endogenous, v ∈ m.base.graph.nodes)
    {pos : Option (List V)} (hp : ∀ l, pos = some l → l ≠ [] → ∀ v ∈ m.base.graph.nodes, v ∈ l) :
    ∃ l, m.draw pos = .ok l ∧
      (drawnNodes l).Perm (m.base.graph.nodes.map fun v => (v, if v ∈ m.endogenous then .black else .lightgray)) ∧
      (drawnTexts l).Perm (m.base.graph.nodes.map fun v => (v, v, if v ∈ m.endogenous then .white else .black)) ∧
      (drawnEdges l).Perm (m.base.graph.edges.map fun e =>
        (e, if e.1 ∈ m.endogenous then (Ink.black, false) else (Ink.gray, true))) := by
  obtain ⟨p, hpd, hpn⟩ : ∃ p, m.draw pos = m.drawCalls.mapM (DrawCall.run p) ∧ ∀ v ∈ m.base.graph.nodes, v ∈ p := by
    match pos, hp with
    | none, _ => exact ⟨_, rfl, fun v hv => hv⟩
    | some [], _ => exact ⟨_, rfl, fun v hv => hv⟩
    | some (a :: l), hp => exact ⟨a :: l, rfl, hp _ rfl (by simp)⟩
  refine ⟨m.drawCalls, ?_, ?_, ?_, ?_⟩
  · rw [hpd]
    refine run_all fun c hc => ?_
    simp only [SCM.drawCalls, List.mem_cons, List.not_mem_nil, or_false] at hc
    rcases hc with rfl | rfl | rfl | rfl | rfl | rfl
    · exact if_pos fun v hv => hpn v (hs v hv)
    · exact if_pos fun v hv => hpn v (List.mem_filter.1 hv).1
    · refine if_pos fun q hq => ?_
      obtain ⟨v, hv, rfl⟩ := List.mem_map.1 hq
      exact hpn v hv
    · refine if_pos fun q hq => ?_
      obtain ⟨v, hv, rfl⟩ := List.mem_map.1 hq
      exact hpn v hv
    · exact if_pos fun e hq => ⟨hpn _ (hg.ends e (List.mem_filter.1 hq).1).1, hpn _ (hg.ends e (List.mem_filter.1 hq).1).2⟩
    · exact if_pos fun e hq => ⟨hpn _ (hg.ends e (List.mem_filter.1 hq).1).1, hpn _ (hg.ends e (List.mem_filter.1 hq).1).2⟩
  · have h1 : m.endogenous.Perm (m.base.graph.nodes.filter fun v => v ∈ m.endogenous) := by
      refine (List.perm_ext_iff_of_nodup he (hg.nodes.filter _)).2 fun v => ?_
      simp only [List.mem_filter, decide_eq_true_eq]
      exact ⟨fun h => ⟨hs v h, h⟩, fun h => h.2⟩
    have h2 : drawnNodes m.drawCalls = (m.endogenous.map fun v => (v, Ink.black)) ++ (m.exogenous.map fun v => (v, Ink.lightgray)) := by
      simp [drawnNodes, SCM.drawCalls]
    rw [h2]
    refine ((h1.map _).append_right _).trans ?_
    refine (split_map (fun v => v ∈ m.endogenous) (fun v => (v, Ink.black)) (fun v => (v, Ink.lightgray)) m.base.graph.nodes).trans ?_
    refine List.Perm.of_eq (List.map_congr_left fun v _ => ?_)
    split <;> rfl
  · have h2 : drawnTexts m.drawCalls = ((m.base.graph.nodes.filter fun v => v ∈ m.endogenous).map fun v => (v, v, Ink.white)) ++
        ((m.base.graph.nodes.filter fun v => v ∉ m.endogenous).map fun v => (v, v, Ink.black)) := by
      simp only [drawnTexts, SCM.drawCalls, List.flatMap_cons, List.flatMap_nil, List.nil_append, List.append_nil]
      rw [texts_eq (fun v => v ∈ m.endogenous) Ink.white, texts_eq (fun v => v ∉ m.endogenous) Ink.black]
    rw [h2]
    refine (split_map (fun v => v ∈ m.endogenous) (fun v => (v, v, Ink.white)) (fun v => (v, v, Ink.black)) m.base.graph.nodes).trans ?_
    refine List.Perm.of_eq (List.map_congr_left fun v _ => ?_)
    split <;> rfl
  · have h2 : drawnEdges m.drawCalls = ((m.base.graph.edges.filter fun e => e.1 ∉ m.endogenous).map fun e => (e, Ink.gray, true)) ++
        ((m.base.graph.edges.filter fun e => e.1 ∈ m.endogenous).map fun e => (e, Ink.black, false)) := by
      simp [drawnEdges, SCM.drawCalls]
    rw [h2]
    refine List.perm_append_comm.trans ?_
    refine (split_map (fun e => e.1 ∈ m.endogenous) (fun e => (e, Ink.black, false)) (fun e => (e, Ink.gray, true)) m.base.graph.edges).trans ?_
    refine List.Perm.of_eq (List.map_congr_left fun v _ => ?_)
    split <;> rfl

/-- **C122** the names of the drawing are read on their nodes: the two colours differ. -/
theorem C122_readable {m : SCM I L} {v : V} {n t : Ink}
    (hn : (v, n) ∈ drawnNodes m.drawCalls) (ht : (v, v, t) ∈ drawnTexts m.drawCalls) : n ≠ t := by
  have h1 : (v ∈ m.endogenous ∧ n = .black) ∨ (v ∉ m.endogenous ∧ n = .lightgray) := by
    simp only [drawnNodes, SCM.drawCalls, SCM.exogenous, List.flatMap_cons, List.flatMap_nil, List.append_nil, List.nil_append,
      List.mem_append, List.mem_map, List.mem_filter, Prod.mk.injEq, decide_eq_true_eq] at hn
    rcases hn with ⟨w, h, rfl, rfl⟩ | ⟨w, h, rfl, rfl⟩
    · exact .inl ⟨h, rfl⟩
    · exact .inr ⟨h.2, rfl⟩
  have h2 : (v ∈ m.endogenous ∧ t = .white) ∨ (v ∉ m.endogenous ∧ t = .black) := by
    simp only [drawnTexts, SCM.drawCalls, List.flatMap_cons, List.flatMap_nil, List.nil_append, List.append_nil] at ht
    rw [texts_eq (fun v => v ∈ m.endogenous) Ink.white, texts_eq (fun v => v ∉ m.endogenous) Ink.black] at ht
    simp only [List.mem_append, List.mem_map, List.mem_filter, Prod.mk.injEq, decide_eq_true_eq] at ht
    rcases ht with ⟨w, h, rfl, _, rfl⟩ | ⟨w, h, rfl, _, rfl⟩
    · exact .inl ⟨h.2, rfl⟩
    · exact .inr ⟨h.2, rfl⟩
  rcases h1 with ⟨a, rfl⟩ | ⟨a, rfl⟩ <;> rcases h2 with ⟨b, rfl⟩ | ⟨b, rfl⟩
  · decide
  · exact absurd a b
  · exact absurd b a
  · decide

/-- **C122** with positions that leave out a node nothing is drawn to the end: `NetworkXError`. -/
theorem C122_refused {m : SCM I L} {l : List V} (hl : l ≠ []) {v : V} (hv : v ∈ m.base.graph.nodes) (hn : v ∉ l) :
    m.draw (some l) = .error .networkx := by
  obtain ⟨a, l, rfl⟩ := List.exists_cons_of_ne_nil hl
  show m.drawCalls.mapM (DrawCall.run (a :: l)) = _
  rw [SCM.drawCalls, List.mapM_cons, DrawCall.run]
  by_cases h1 : ∀ w ∈ m.endogenous, w ∈ a :: l
  · rw [if_pos h1, List.mapM_cons, DrawCall.run, if_neg]
    · rfl
    · exact fun h => hn (h v (List.mem_filter.2 ⟨hv, by simpa using fun h' => hn (h1 v h')⟩))
  · rw [if_neg h1]
    rfl

/-- **C122** an endogenous variable that is not a node (the constructor does not check the names) cannot be drawn. -/
theorem C122_stranger {m : SCM I L} {v : V} (hv : v ∈ m.endogenous) (hn : v ∉ m.base.graph.nodes) :
    m.draw none = .error .networkx := by
  show m.drawCalls.mapM (DrawCall.run m.base.graph.nodes) = _
  rw [SCM.drawCalls, List.mapM_cons, DrawCall.run, if_neg fun h => hn (h v hv)]
  rfl

/-- **C122** every model whose endogenous variables were not named can be drawn. -/
theorem C122_default {m : SCM I L} (hg : m.base.graph.WF) (he : m.endogenous = SCM.defaultEndo m.base.graph) :
    m.draw none = .ok m.drawCalls := by
  obtain ⟨l, h1, _⟩ := C122_drawn (pos := none) hg (by rw [he]; exact hg.nodes.filter _)
    (fun v hv => by rw [he] at hv; exact (List.mem_filter.1 hv).1) (fun l h => by cases h)
  have : ∀ (p : List V) (cs l : List (DrawCall V)), cs.mapM (DrawCall.run p) = .ok l → l = cs := by
    intro p cs
    induction cs with
    | nil => intro l h; cases h; rfl
    | cons c cs ih =>
      intro l h
      rw [List.mapM_cons] at h
      have hc : ∀ d, c.run p = .ok d → d = c := by
        intro d hd
        cases c <;> simp only [DrawCall.run] at hd <;> split at hd <;> cases hd <;> rfl
      cases e : c.run p with
      | error _ => rw [e] at h; cases h
      | ok d =>
        cases e' : cs.mapM (DrawCall.run p) with
        | error _ => rw [e, e'] at h; cases h
        | ok l' =>
          rw [e, e'] at h
          cases h
          show d :: l' = c :: cs
          rw [hc d e, ih l' e']
  rw [h1, this _ _ _ h1]

set_option synthInstance.maxSize 1000 in
set_option synthInstance.maxHeartbeats 400000 in
/-- A model with one exogenous variable that is drawn, with positions left out and with an endogenous variable that is not a node. -/
theorem C122_example : ∀ vt,
    (do let m ← SCM.init (I := IS vt PyStr) (L := LS vt PyStr) ⟨[sU, sX, sY], [(sU, sX), (sX, sY)]⟩ none true true
        let l ← m.draw none
        return (drawnNodes l, drawnTexts l, drawnEdges l)) =
      .ok ([(sX, .black), (sY, .black), (sU, .lightgray)], [(sX, sX, .white), (sY, sY, .white), (sU, sU, .black)],
        [((sU, sX), .gray, true), ((sX, sY), .black, false)]) ∧
    (do let m ← SCM.init (I := IS vt PyStr) (L := LS vt PyStr) ⟨[sU, sX], [(sU, sX)]⟩ none true true
        m.draw (some [sX])) = .error .networkx ∧
    (do let m ← SCM.init (I := IS vt PyStr) (L := LS vt PyStr) ⟨[sU, sX], [(sU, sX)]⟩ (some [sX, sY]) true true
        m.draw none) = .error .networkx := by
  intro vt
  refine ⟨?_, ?_, ?_⟩
  · cases vt <;> decide +kernel
  · cases vt <;> decide +kernel
  · cases vt <;> decide +kernel

end Verif.Props
