import Verif.IO.Files
import Verif.Props.UaiScm
import Verif.Props.Pgmpy
import Verif.Props.Models

/-!
# C88: models saved in files and read again
-/

set_option linter.unusedSectionVars false
set_option linter.unusedSimpArgs false

namespace Verif.Props
open Verif.Files Verif.Uai Verif.Pgmpy

/-- The file that a path names -/
def place (d : Disk) (filepath : Str) : List Str := (Path.ofStr filepath).absolute d.cwd

/-- The working directory and the root are folders. -/
structure _root_.Verif.Files.Disk.WF (d : Disk) : Prop where
  cwd : d.cwd ∈ d.folders
  root : [] ∈ d.folders

theorem _root_.Verif.Dict.get?_set_same {κ ν : Type} [DecidableEq κ] (d : List (κ × ν)) (k : κ) (v : ν) : Dict.get? (Dict.set d k v) k = some v := by
  by_cases h : k ∈ Dict.keys d
  · rw [Dict.get?_set_of_mem h, if_pos rfl]
  · rw [Dict.set, if_neg h, Dict.get?_append, Dict.get?_eq_none.2 h]; simp [Dict.get?]

theorem _root_.Verif.Dict.get?_set_other {κ ν : Type} [DecidableEq κ] (d : List (κ × ν)) {k k' : κ} (v : ν) (h' : k' ≠ k) :
    Dict.get? (Dict.set d k v) k' = Dict.get? d k' := by
  by_cases h : k ∈ Dict.keys d
  · rw [Dict.get?_set_of_mem h, if_neg h']
  · rw [Dict.set, if_neg h, Dict.get?_append]
    have : Dict.get? [(k, v)] k' = none := by simp [Dict.get?, Ne.symm h']
    rw [this]; simp

/-! ### Formats -/

theorem suffix_slash {c : Char} {suf pre x : Str} (hc : c ∉ suf) (hp : pre = [] ∨ ∃ p, pre = p ++ [c]) : suf <:+ pre ++ x ↔ suf <:+ x := by
  constructor
  · intro h
    rcases List.suffix_or_suffix_of_suffix h (List.suffix_append pre x) with h1 | h1
    · exact h1
    · obtain ⟨y, rfl⟩ := h1
      have h2 : y <:+ pre := by
        obtain ⟨z, hz⟩ := h
        rw [← List.append_assoc] at hz
        exact ⟨z, List.append_cancel_right hz⟩
      rcases hp with rfl | ⟨p, rfl⟩
      · rw [List.suffix_nil.1 h2]; exact List.suffix_refl _
      · rcases List.eq_nil_or_concat y with rfl | ⟨y', a, rfl⟩
        · exact List.suffix_refl _
        · obtain ⟨z, hz⟩ := h2
          rw [List.concat_eq_append, ← List.append_assoc] at hz
          have := (List.append_inj' hz rfl).2
          simp only [List.cons.injEq, and_true] at this
          exact absurd (by simp [this]) hc
  · exact fun h => h.trans (List.suffix_append _ _)

theorem join_last (c : Char) (l : List Str) (x : Str) : ∃ pre, pyJoin [c] (l ++ [x]) = pre ++ x ∧ (pre = [] ∨ ∃ p, pre = p ++ [c]) := by
  induction l with
  | nil => exact ⟨[], by simp [pyJoin], .inl rfl⟩
  | cons y l ih =>
    obtain ⟨pre, h1, h2⟩ := ih
    obtain ⟨z, l', hl⟩ : ∃ z l', l ++ [x] = z :: l' := by
      cases l with
      | nil => exact ⟨_, _, rfl⟩
      | cons z l => exact ⟨_, _, rfl⟩
    refine ⟨y ++ [c] ++ pre, ?_, ?_⟩
    · rw [List.cons_append, hl, pyJoin, ← hl, h1]; simp
    · rcases h2 with rfl | ⟨p, rfl⟩
      · exact .inr ⟨y, by simp⟩
      · exact .inr ⟨y ++ [c] ++ p, by simp⟩

/-- The end of the name is the end of the last part. -/
theorem suffix_str {suf : Str} (hc : '/' ∉ suf) {p : Path} {l : List Str} {x : Str} (hp : p.parts = l ++ [x]) : suf <:+ p.str ↔ suf <:+ x := by
  obtain ⟨pre, h1, h2⟩ := join_last '/' l x
  rw [Path.str, hp, h1]
  split
  · rw [← List.cons_append]
    refine suffix_slash hc (.inr ?_)
    rcases h2 with rfl | ⟨q, rfl⟩
    · exact ⟨[], rfl⟩
    · exact ⟨'/' :: q, rfl⟩
  · rw [if_neg (by simp)]
    exact suffix_slash hc h2

theorem format_last {p q : Path} {l l' : List Str} {x : Str} (hp : p.parts = l ++ [x]) (hq : q.parts = l' ++ [x]) : format p = format q := by
  have h : ∀ suf : Str, '/' ∉ suf → (suf <:+ p.str ↔ suf <:+ q.str) := fun suf hs => (suffix_str hs hp).trans (suffix_str hs hq).symm
  rw [format, format]
  simp only [h _ (show '/' ∉ ".uai".toList by decide), h _ (show '/' ∉ ".xmlbif".toList by decide),
    h _ (show '/' ∉ ".bif".toList by decide)]

theorem absolute_last {p : Path} {cwd : List Str} (h : p.parts ≠ []) : ∃ l l' x, p.parts = l ++ [x] ∧ p.absolute cwd = l' ++ [x] := by
  rcases List.eq_nil_or_concat p.parts with h' | ⟨l, x, h'⟩
  · exact absurd h' h
  · rw [List.concat_eq_append] at h'
    rw [Path.absolute]
    split
    · exact ⟨l, l, x, h', h'⟩
    · exact ⟨l, cwd ++ l, x, h', by rw [h', List.append_assoc]⟩

/-- Two names of the same file that is not a folder have the same format. -/
theorem format_place {d : Disk} (hd : d.WF) {s s' : Str} (h : place d s = place d s') (hf : place d s ∉ d.folders) :
    format (Path.ofStr s) = format (Path.ofStr s') := by
  have hne : ∀ s, place d s ∉ d.folders → (Path.ofStr s).parts ≠ [] := by
    intro s hs he
    apply hs
    rw [place, Path.absolute, he]
    split
    · exact hd.root
    · rw [List.append_nil]; exact hd.cwd
  obtain ⟨l, l1, x, h1, h2⟩ := absolute_last (cwd := d.cwd) (hne s hf)
  obtain ⟨l', l1', x', h1', h2'⟩ := absolute_last (cwd := d.cwd) (hne s' (h ▸ hf))
  have : l1 ++ [x] = l1' ++ [x'] := by rw [← h2, ← h2']; exact h
  have hx := (List.append_inj' this rfl).2
  simp only [List.cons.injEq, and_true] at hx
  subst hx
  exact format_last h1 h1'

/-! ### Saving and reading -/

theorem textFor_ok {txt : Format → Py Str} {d : Disk} {q : List Str} {f : Format} {t : Str} :
    textFor txt d q f = .ok t ↔ txt f = .ok t ∧ (q ∈ d.folders ∨ q ∈ Dict.keys d.files) := by
  have h : ∀ g : Format, (do d.assertExists q; txt g : Py Str) = .ok t ↔ txt g = .ok t ∧ (q ∈ d.folders ∨ q ∈ Dict.keys d.files) := by
    intro g
    rw [Disk.assertExists]
    split
    · rename_i hq; simp only [py_ok_bind]; exact ⟨fun h => ⟨h, hq⟩, fun h => h.1⟩
    · rename_i hq
      constructor
      · intro h; cases h
      · intro h; exact absurd h.2 hq
  cases f with
  | xmlBif => exact h _
  | plainBif => exact h _
  | uai =>
    rw [textFor]
    cases ht : txt .uai with
    | error e => constructor
                 · intro h; cases h
                 · intro h; cases h.1
    | ok u =>
      rw [py_ok_bind, Disk.assertExists]
      split
      · rename_i hq; exact ⟨fun h => ⟨h, hq⟩, fun h => h.1⟩
      · rename_i hq
        constructor
        · intro h; cases h
        · intro h; exact absurd h.2 hq

/-- When a call of `save` succeeds and what it does -/
theorem save_ok {txt : Format → Py Str} {d : Disk} {s : Str} {r : Disk × List Str} :
    save txt d s = .ok r ↔ ∃ f t, format (Path.ofStr s) = .ok f ∧ txt f = .ok t ∧ place d s ∉ d.folders ∧ (place d s).dropLast ∈ d.folders ∧
      r = ({ d with files := Dict.set d.files (place d s) t }, place d s) := by
  rw [save]
  cases hf : format (Path.ofStr s) with
  | error e => constructor
               · intro h; cases h
               · rintro ⟨f, t, h, _⟩; cases h
  | ok f =>
    rw [py_ok_bind]
    show (do
      let t ← textFor txt d (place d s).dropLast f
      let d' ← d.write (place d s) t
      return (d', place d s)) = .ok r ↔ _
    cases ht : textFor txt d (place d s).dropLast f with
    | error e =>
      constructor
      · intro h; cases h
      · rintro ⟨f', t, h1, h2, h3, h4, h5⟩
        cases h1
        have := textFor_ok.2 ⟨h2, .inl h4⟩
        rw [ht] at this; cases this
    | ok t =>
      rw [py_ok_bind, Disk.write]
      obtain ⟨h1, h2⟩ := textFor_ok.1 ht
      split
      · rename_i h
        constructor
        · intro h; cases h
        · rintro ⟨f', t, _, _, h3, h4, _⟩
          rcases h with h | h
          · exact absurd h h3
          · exact absurd h4 h
      · rename_i h
        have h := not_or.1 h
        constructor
        · intro e
          injection e with e
          exact ⟨f, t, rfl, h1, h.1, not_not.1 h.2, e.symm⟩
        · rintro ⟨f', t', g1, g2, _, _, e⟩
          cases g1
          rw [h1] at g2
          injection g2 with g2
          rw [e, g2]
          rfl

/-- **C88** (`pgmodel.py:75-99`) a successful `save` writes the file that its path names and nothing else; afterwards `read` of any path of
that file reads what was written, and `read` of a path of another file gives what it gave before. -/
theorem C88_save {M : Type} {txt : Format → Py Str} {parse : Format → Str → Py M} {d d' : Disk} (hd : d.WF) {s : Str} {p : List Str}
    (h : save txt d s = .ok (d', p)) :
    p = place d s ∧ d'.folders = d.folders ∧ d'.cwd = d.cwd ∧ d'.WF ∧
    ∃ f t, format (Path.ofStr s) = .ok f ∧ txt f = .ok t ∧
      (∀ s', place d s' = place d s → Files.read parse d' s' = parse f t) ∧
      ∀ s', place d s' ≠ place d s → Files.read parse d' s' = Files.read parse d s' := by
  obtain ⟨f, t, h1, h2, h3, h4, h5⟩ := save_ok.1 h
  injection h5 with h5 h6
  subst h5 h6
  refine ⟨rfl, rfl, rfl, ⟨hd.cwd, hd.root⟩, f, t, h1, h2, fun s' hs => ?_, fun s' hs => ?_⟩
  · rw [Files.read, ← format_place hd hs.symm h3, h1, py_ok_bind]
    have : ({ d with files := Dict.set d.files (place d s) t } : Disk).text (place d s') = .ok t := by
      simp only [Disk.text, hs, Dict.get?_set_same]
    show (do let t ← Disk.text _ (place d s'); parse f t) = _
    rw [this]
    rfl
  · rw [Files.read, Files.read]
    have : ({ d with files := Dict.set d.files (place d s) t } : Disk).text (place d s') = d.text (place d s') := by
      simp only [Disk.text, Dict.get?_set_other _ _ hs]
    show (do let f ← format (Path.ofStr s'); let t ← Disk.text _ (place d s'); parse f t) =
      (do let f ← format (Path.ofStr s'); let t ← Disk.text _ (place d s'); parse f t)
    rw [this]

/-- **C88** (`pgmodel.py:83-84`, `97-98`) a path with another ending is refused, for writing as well as for reading; a missing folder and a
missing file are reported by the operating system. -/
theorem C88_refused {M : Type} (txt : Format → Py Str) (parse : Format → Str → Py M) (d : Disk) (s : Str) :
    ((∀ e ∈ [".uai", ".xmlbif", ".bif"], ¬ e.toList <:+ (Path.ofStr s).str) →
      save txt d s = .error .valueError ∧ Files.read parse d s = .error .valueError) ∧
    (∀ f, format (Path.ofStr s) = .ok f → ∀ t, txt f = .ok t → (place d s).dropLast ∉ d.folders → save txt d s = .error .osError) ∧
    (∀ f, format (Path.ofStr s) = .ok f → place d s ∉ Dict.keys d.files → Files.read parse d s = .error .osError) := by
  refine ⟨fun h => ?_, fun f hf t ht hp => ?_, fun f hf hp => ?_⟩
  · have : format (Path.ofStr s) = .error .valueError := by
      rw [format, if_neg (h ".uai" (by simp)), if_neg (h ".xmlbif" (by simp)), if_neg (h ".bif" (by simp))]
    rw [save, Files.read, this]
    exact ⟨rfl, rfl⟩
  · rw [save, hf, py_ok_bind]
    show (do
      let t ← textFor txt d (place d s).dropLast f
      let d' ← d.write (place d s) t
      return (d', place d s)) = _
    have hw : ∀ t, d.write (place d s) t = .error .osError := fun t => by rw [Disk.write, if_pos (.inr hp)]
    have hx : textFor txt d (place d s).dropLast f = .ok t ∨ textFor txt d (place d s).dropLast f = .error .osError := by
      by_cases hq : (place d s).dropLast ∈ d.folders ∨ (place d s).dropLast ∈ Dict.keys d.files
      · exact .inl (textFor_ok.2 ⟨ht, hq⟩)
      · right
        cases f with
        | uai => rw [textFor, ht, py_ok_bind, Disk.assertExists, if_neg hq]; rfl
        | xmlBif => rw [textFor, Disk.assertExists, if_neg hq]; rfl; simp
        | plainBif => rw [textFor, Disk.assertExists, if_neg hq]; rfl; simp
    rcases hx with hx | hx
    · rw [hx, py_ok_bind, hw]; rfl
    · rw [hx]; rfl
  · rw [Files.read, hf, py_ok_bind]
    show (do let t ← Disk.text d (place d s); parse f t) = _
    rw [Disk.text, Dict.get?_eq_none.2 hp]
    rfl

/-- What a call of `save` writes: the place and the text -/
def wrote (d : Disk) (c : (Format → Py Str) × Str) : Option (List Str × Str) :=
  match format (Path.ofStr c.2) with
  | .error _ => none
  | .ok f => match c.1 f with
    | .error _ => none
    | .ok t => if place d c.2 ∉ d.folders ∧ (place d c.2).dropLast ∈ d.folders then some (place d c.2, t) else none

theorem wrote_some {d : Disk} {c : (Format → Py Str) × Str} {p : List Str} {t : Str} (h : wrote d c = some (p, t)) :
    p = place d c.2 ∧ place d c.2 ∉ d.folders ∧ after c.1 d c.2 = { d with files := Dict.set d.files p t } := by
  rw [wrote] at h
  cases hf : format (Path.ofStr c.2) with
  | error e => rw [hf] at h; cases h
  | ok f =>
    rw [hf] at h
    cases ht : c.1 f with
    | error e => simp [ht] at h
    | ok t' =>
      simp only [ht] at h
      split at h
      · rename_i hp
        injection h with h
        injection h with h1 h2
        subst h1 h2
        refine ⟨rfl, hp.1, ?_⟩
        rw [after, save_ok.2 ⟨f, t', hf, ht, hp.1, hp.2, rfl⟩]
      · cases h

theorem wrote_none {d : Disk} {c : (Format → Py Str) × Str} (h : wrote d c = none) : after c.1 d c.2 = d := by
  rw [after]
  cases hs : save c.1 d c.2 with
  | error e => rfl
  | ok r =>
    obtain ⟨f, t, h1, h2, h3, h4, h5⟩ := save_ok.1 hs
    rw [wrote, h1] at h
    simp only [h2, if_pos (And.intro h3 h4)] at h
    cases h

theorem wrote_congr {d d' : Disk} (h1 : d'.cwd = d.cwd) (h2 : d'.folders = d.folders) (c : (Format → Py Str) × Str) : wrote d' c = wrote d c := by
  obtain ⟨a, b, f⟩ := d
  obtain ⟨a', b', f'⟩ := d'
  cases h1
  cases h2
  rfl

/-- The disk after calls of `save`, each of which may fail -/
def session (d : Disk) (calls : List ((Format → Py Str) × Str)) : Disk := calls.foldl (fun d c => after c.1 d c.2) d

/-- The last text that calls of `save` write to a place -/
def lastText (d : Disk) (calls : List ((Format → Py Str) × Str)) (p : List Str) : Option Str :=
  ((calls.filterMap (wrote d)).reverse.find? fun w => w.1 = p).map Prod.snd

theorem session_spec (d : Disk) (calls : List ((Format → Py Str) × Str)) :
    (session d calls).cwd = d.cwd ∧ (session d calls).folders = d.folders ∧
    ∀ p, Dict.get? (session d calls).files p = (lastText d calls p).or (Dict.get? d.files p) := by
  induction calls using List.reverseRecOn with
  | nil => exact ⟨rfl, rfl, fun p => by simp [session, lastText]⟩
  | append_singleton l c ih =>
    obtain ⟨h1, h2, h3⟩ := ih
    have hs : session d (l ++ [c]) = after c.1 (session d l) c.2 := by simp [session]
    have hw : wrote (session d l) c = wrote d c := wrote_congr h1 h2 c
    rw [hs]
    cases hc : wrote d c with
    | none =>
      rw [wrote_none (hw.trans hc)]
      refine ⟨h1, h2, fun p => ?_⟩
      rw [h3, lastText, lastText, List.filterMap_append]
      simp [hc]
    | some w =>
      obtain ⟨p', t⟩ := w
      obtain ⟨g1, g2, g3⟩ := wrote_some (hw.trans hc)
      rw [g3]
      refine ⟨h1, h2, fun p => ?_⟩
      show Dict.get? (Dict.set (session d l).files p' t) p = _
      rw [lastText, List.filterMap_append]
      by_cases e : p = p'
      · subst e
        rw [Dict.get?_set_same]
        simp [hc]
      · rw [Dict.get?_set_other _ _ e, h3, lastText]
        simp [hc, Ne.symm e]

/-- **C88** (`pgmodel.py:75-99`) after any sequence of calls of `save`, whichever of them fail, `read` reads the last text that was written to the file,
or what was there before. -/
theorem C88_history {M : Type} (parse : Format → Str → Py M) (d : Disk) (calls : List ((Format → Py Str) × Str)) (s : Str) :
    Files.read parse (session d calls) s =
      match lastText d calls (place d s) with
      | some t => (do let f ← format (Path.ofStr s); parse f t)
      | none => Files.read parse d s := by
  obtain ⟨h1, h2, h3⟩ := session_spec d calls
  have hp : (Path.ofStr s).absolute (session d calls).cwd = place d s := by rw [h1]; rfl
  rw [Files.read, hp]
  cases h : lastText d calls (place d s) with
  | some t =>
    have : (session d calls).text (place d s) = .ok t := by simp only [Disk.text, h3, h, Option.or]
    rw [this]
    rfl
  | none =>
    have : (session d calls).text (place d s) = d.text (place d s) := by simp only [Disk.text, h3, h, Option.or]
    rw [this]
    rfl

/-! ### Networks and structural causal models -/

variable {V S S' K : Type} [DecidableEq V] [DecidableEq S] [DecidableEq S'] [Inhabited S] [Inhabited S'] [Field K] [LinearOrder K] [IsStrictOrderedRing K]

theorem py_bind_ok {α β : Type} {x : Py α} {f : α → Py β} {y : β} (h : (x >>= f) = .ok y) : ∃ a, x = .ok a ∧ f a = .ok y := by
  cases x with
  | error e => cases h
  | ok a => exact ⟨a, rfl, h⟩

theorem toUai_label {α : Type} [Inhabited α] {I : StoreImpl V S α} {T : FloatText α} {m : DagModel (Factor I) V S}
    {vo : Option (List V)} {t : Str} (h : toUai T m vo = .ok t) : ∃ r, t = "BAYES".toList ++ '\n' :: r := by
  rw [toUai] at h
  obtain ⟨order, _, h⟩ := py_bind_ok h
  obtain ⟨sizes, _, h⟩ := py_bind_ok h
  obtain ⟨cards, _, h⟩ := py_bind_ok h
  obtain ⟨scopes, _, h⟩ := py_bind_ok h
  obtain ⟨vals, _, h⟩ := py_bind_ok h
  injection h with h
  rw [← h, text]
  exact ⟨_, rfl⟩

theorem toUaiScm_label {I : StoreImpl V S (Fl K)} {L : LabelStore V S} {T : FloatText (Fl K)} {asInt : S → Py Int}
    {ofNat : Nat → S} {m : SCM I L} {vo : Option (List V)} {t : Str} (h : toUaiScm T asInt ofNat m vo = .ok t) :
    ∃ r, t = "CAUSAL".toList ++ '\n' :: r := by
  rw [toUaiScm] at h
  obtain ⟨order, _, h⟩ := py_bind_ok h
  obtain ⟨sizes, _, h⟩ := py_bind_ok h
  obtain ⟨cards, _, h⟩ := py_bind_ok h
  obtain ⟨scopes, _, h⟩ := py_bind_ok h
  obtain ⟨vals, _, h⟩ := py_bind_ok h
  injection h with h
  rw [← h, text]
  exact ⟨_, rfl⟩

theorem checkLabel_eq {label l : Str} (h1 : '\n' ∉ l) (h2 : ' ' ∉ l) (r : Str) :
    checkLabel label (l ++ '\n' :: r) = if isSub l label then .ok () else .error .valueError := by
  have : (l ++ '\n' :: r).takeWhile (· ≠ '\n') = l := by
    rw [List.takeWhile_append_of_pos]
    · simp
    · intro c hc
      have : c ≠ '\n' := by rintro rfl; exact h1 hc
      simpa using this
  rw [checkLabel, this]
  have : l.filter (· ≠ ' ') = l := by
    rw [List.filter_eq_self]
    intro c hc
    have : c ≠ ' ' := by rintro rfl; exact h2 hc
    simpa using this
  rw [this]

/-- **C88** (`bnread.py:42-45`, `scmread.py:31-34`) a UAI text made from a network cannot be read as a structural causal model, nor the other way
round. -/
theorem C88_class (I : StoreImpl V S (Fl K)) (L : LabelStore V S) (I' : StoreImpl Str S' (Fl K)) (L' : LabelStore Str S')
    (T : FloatText (Fl K)) (asInt : S → Py Int) (ofNat : Nat → S) (lab : Nat → S') (ofFloat : Fl K → S') (vo : Option (List V)) (t : Str) :
    (∀ m : DagModel (Factor I) V S, toUai T m vo = .ok t → fromUaiScm I' L' lab ofFloat T t = .error .valueError) ∧
    (∀ m : SCM I L, toUaiScm T asInt ofNat m vo = .ok t → fromUai I' lab T t = .error .valueError) := by
  constructor
  · intro m h
    obtain ⟨r, rfl⟩ := toUai_label h
    rw [fromUaiScm, checkLabel_eq (by decide) (by decide), if_neg (by decide)]
    rfl
  · intro m h
    obtain ⟨r, rfl⟩ := toUaiScm_label h
    rw [fromUai, checkLabel_eq (by decide) (by decide), if_neg (by decide)]
    rfl

/-- **C88** (`pgmodel.py:75-99`, `bnet.py:19`) a network saved in a `.uai` file comes back, under any path of that file, with the names `V0`, `V1`, … and the states
`0`, `1`, … and the same tables. Read as a structural causal model the file is refused.

Partial: the conditions of `C63_round_trip_partial`. -/
theorem C88_net_uai_partial (vt vt' : VType) {m : DagModel (Factor (storeOf vt : StoreImpl V S (Fl K))) V S} {B : BN V S K}
    (hr : Represents m B) (hB : B.Valid) (hk : Dict.keys m.domains = B.nodes)
    (hd : ∀ v ∈ B.nodes, Dict.get? m.domains v = some (some (B.states v)))
    {varOrder : Option (List V)} {order : List V} (hw : writeOrder m.graph.nodes varOrder = .ok order) (hon : order.Nodup)
    {T : FloatText (Fl K)} (hok : UaiOk B order T) {lab : Nat → S'} (hl : Function.Injective lab)
    (print : Format → PgmpyNet V S (Fl K) → Str) (parse : Format → Str → Py (PgmpyNet Str S' (Fl K))) (ofFloat : Fl K → S')
    {d : Disk} (hD : d.WF) {s : Str} (hs : ".uai".toList <:+ (Path.ofStr s).str) (hn : place d s ∉ d.folders)
    (hf : (place d s).dropLast ∈ d.folders) :
    ∃ d' m' nodes, save (netText T print m varOrder) d s = .ok (d', place d s) ∧
      nodes.Perm (B.nodes.map (fileName order)) ∧ Represents m' (B.coded order lab nodes) ∧
      ∀ s', place d s' = place d s → Files.read (netParse (storeOf vt') lab T parse) d' s' = .ok m' ∧
        Files.read (causalParse (storeOf vt') (labelStoreOf vt') lab ofFloat T parse) d' s' = .error .valueError := by
  obtain ⟨t, m', nodes, h1, h2, h3, h4⟩ := C63_round_trip_partial vt vt' hr hB hk hd hw hon hok hl
  have hfm : format (Path.ofStr s) = .ok .uai := by rw [format, if_pos hs]
  have ht : netText T print m varOrder .uai = .ok t := h1
  have hsave := save_ok.2 ⟨.uai, t, hfm, ht, hn, hf, rfl⟩
  refine ⟨_, m', nodes, hsave, h3, h4, fun s' hs' => ⟨?_, ?_⟩⟩
  · obtain ⟨_, _, _, _, f, t', g1, g2, g3, _⟩ := C88_save (parse := netParse (storeOf vt') lab T parse) hD hsave
    rw [hfm] at g1; cases g1
    rw [ht] at g2; cases g2
    rw [g3 s' hs']
    exact h2
  · obtain ⟨_, _, _, _, f, t', g1, g2, g3, _⟩ := C88_save (parse := causalParse (storeOf vt') (labelStoreOf vt') lab ofFloat T parse) hD hsave
    rw [hfm] at g1; cases g1
    rw [ht] at g2; cases g2
    rw [g3 s' hs']
    exact (C88_class _ (labelStoreOf vt : LabelStore V S) (storeOf vt') (labelStoreOf vt') T (fun _ => .ok 0) (fun _ => default) lab ofFloat
      varOrder t).1 m h1

/-- **C88** (`pgmodel.py:75-99`, `cmodel.py:143-144`) the same for structural causal models, which keep their endogenous variables and equations.

Partial: the conditions of `C64_round_trip_partial`. -/
theorem C88_scm_uai_partial (vt vt' : VType) {m : SCM (storeOf vt : StoreImpl V S (Fl K)) (labelStoreOf vt : LabelStore V S)} {B : BN V S K}
    (hr : m.Rep B) (hB : B.Valid) (hN : B.Normalised) (hk : Dict.keys m.base.domains = B.nodes)
    (hd : ∀ v ∈ B.nodes, Dict.get? m.base.domains v = some (some (B.states v)))
    {varOrder : Option (List V)} {order : List V} (hw : writeOrder (m.endogenous ++ m.exogenous) varOrder = .ok order) (hon : order.Nodup)
    {T : FloatText (Fl K)} (hok : UaiScmOk B m.endogenous order T)
    (hT : ∀ i : Nat, T.float (natText i) = .ok (.fin i))
    {asInt : S → Py Int} {ofNat : Nat → S} (hint : ∀ v ∈ m.endogenous, ∀ i < (B.states v).length, asInt (ofNat i) = .ok (i : Int))
    (hdet : ∀ v ∈ m.endogenous, ∀ f, Dict.get? m.base.factors v = some (some f) → f.isDet = true →
      ∀ s ∈ B.states v, asInt s = .ok (((B.states v).idxOf s : Nat) : Int))
    (hexo : ∀ v ∈ B.nodes, v ∉ m.endogenous → ∀ f, Dict.get? m.base.factors v = some (some f) → f.isDet = false)
    {lab : Nat → S'} (hl : Function.Injective lab) {ofFloat : Fl K → S'} (hof : ∀ i : Nat, ofFloat (.fin i) = lab i)
    (print : Format → PgmpyNet V S (Fl K) → Str) (parse : Format → Str → Py (PgmpyNet Str S' (Fl K)))
    {d : Disk} (hD : d.WF) {s : Str} (hs : ".uai".toList <:+ (Path.ofStr s).str) (hn : place d s ∉ d.folders)
    (hf : (place d s).dropLast ∈ d.folders) :
    ∃ d' m' nodes, save (causalText T asInt ofNat print m varOrder) d s = .ok (d', place d s) ∧
      nodes.Perm (B.nodes.map (fileName order)) ∧ m'.Rep (B.coded order lab nodes) ∧
      (∀ v ∈ B.nodes, fileName order v ∈ m'.endogenous ↔ v ∈ m.endogenous) ∧
      ∀ s', place d s' = place d s → Files.read (causalParse (storeOf vt') (labelStoreOf vt') lab ofFloat T parse) d' s' = .ok m' ∧
        Files.read (netParse (storeOf vt') lab T parse) d' s' = .error .valueError := by
  obtain ⟨t, m', nodes, h1, h2, h3, h4, h5⟩ := C64_round_trip_partial vt vt' hr hB hN hk hd hw hon hok hT hint hdet hexo hl hof
  have hfm : format (Path.ofStr s) = .ok .uai := by rw [format, if_pos hs]
  have ht : causalText T asInt ofNat print m varOrder .uai = .ok t := h1
  have hsave := save_ok.2 ⟨.uai, t, hfm, ht, hn, hf, rfl⟩
  refine ⟨_, m', nodes, hsave, h3, h4, h5, fun s' hs' => ⟨?_, ?_⟩⟩
  · obtain ⟨_, _, _, _, f, t', g1, g2, g3, _⟩ := C88_save (parse := causalParse (storeOf vt') (labelStoreOf vt') lab ofFloat T parse) hD hsave
    rw [hfm] at g1; cases g1
    rw [ht] at g2; cases g2
    rw [g3 s' hs']
    exact h2
  · obtain ⟨_, _, _, _, f, t', g1, g2, g3, _⟩ := C88_save (parse := netParse (storeOf vt') lab T parse) hD hsave
    rw [hfm] at g1; cases g1
    rw [ht] at g2; cases g2
    rw [g3 s' hs']
    exact (C88_class _ _ (storeOf vt') (labelStoreOf vt' : LabelStore Str S') T asInt ofNat lab ofFloat varOrder t).2 m h1

/-- **C88** (`bnwrite.py:16-29`, `bnread.py:18-32`) a network saved in a `.bif` or `.xmlbif` file comes back with its names, states and tables when pgmpy reads what it wrote.

Partial: the conditions of `C75_round_trip_partial`. -/
theorem C88_net_bif_partial (vt vt' : VType) {m : DagModel (Factor (storeOf vt : StoreImpl Str S (Fl K))) Str S} {B : BN Str S K}
    (hr : Represents m B) (hB : B.Valid) (hcon : ∀ v ∈ B.nodes, B.parents v ≠ [] ∨ ∃ w ∈ B.nodes, v ∈ B.parents w)
    (hok : ∀ v f, (v, some f) ∈ m.factors → f.vars = f.rightVars ++ [v] ∧
      (f.rightVars.length ≤ 1 ∨ ∀ p ∈ f.rightVars.head?, (B.states p).length = (B.states v).length))
    (T : FloatText (Fl K)) (lab : Nat → S) (varOrder : Option (List Str)) {print : Format → PgmpyNet Str S (Fl K) → Str}
    {parse : Format → Str → Py (PgmpyNet Str S (Fl K))} {f : Format} (hfu : f ≠ .uai)
    (hP : ∀ n, toPgmpyBNet m = .ok n → parse f (print f n) = .ok n)
    {d : Disk} (hD : d.WF) {s : Str} (hs : format (Path.ofStr s) = .ok f) (hn : place d s ∉ d.folders)
    (hf : (place d s).dropLast ∈ d.folders) :
    ∃ d' m' nodes, save (netText T print m varOrder) d s = .ok (d', place d s) ∧ nodes.Perm B.nodes ∧ Represents m' (B.reorder nodes) ∧
      ∀ s', place d s' = place d s → Files.read (netParse (storeOf vt') lab T parse) d' s' = .ok m' := by
  obtain ⟨n, m', nodes, h1, h2, h3, h4⟩ := C75_round_trip_partial vt vt' hB hr hcon hok
  have ht : netText T print m varOrder f = .ok (print f n) := by
    cases f with
    | uai => exact absurd rfl hfu
    | xmlBif => rw [netText, h1]; rfl; simp
    | plainBif => rw [netText, h1]; rfl; simp
  have hsave := save_ok.2 ⟨f, _, hs, ht, hn, hf, rfl⟩
  refine ⟨_, m', nodes, hsave, h3, h4, fun s' hs' => ?_⟩
  obtain ⟨_, _, _, _, f', t', g1, g2, g3, _⟩ := C88_save (parse := netParse (storeOf vt') lab T parse) hD hsave
  rw [hs] at g1; cases g1
  rw [ht] at g2; cases g2
  rw [g3 s' hs']
  cases f with
  | uai => exact absurd rfl hfu
  | xmlBif => rw [netParse, hP n h1, py_ok_bind]; exact h2; simp
  | plainBif => rw [netParse, hP n h1, py_ok_bind]; exact h2; simp

/-- The slot without deterministic factors -/
def stripDet {I : StoreImpl V S (Fl K)} {L : LabelStore V S} : Option (AnyFactor I L) → Option (Factor I)
  | some (.multi f) => some f
  | _ => none

/-- A network whose factors are all multinomial, as a network of multinomial factors -/
theorem strip_represents {vt : VType} {b : DagModel (AnyFactor (storeOf vt : StoreImpl V S (Fl K)) (labelStoreOf vt : LabelStore V S)) V S} {B : BN V S K}
    (hB : B.Valid) (hb : Represents (I := storeOf vt) b B) :
    b.factors.mapM multiOnly = .ok (b.factors.map fun p => (p.1, stripDet p.2)) ∧
    Represents (⟨b.graph, b.factors.map fun p => (p.1, stripDet p.2), b.domains, b.check⟩ :
      DagModel (Factor (storeOf vt : StoreImpl V S (Fl K))) V S) B := by
  have hkn : (Dict.keys b.factors).Nodup := by rw [hb.keys, hb.nodes]; exact hB.nodes
  have hall : ∀ v ∈ B.nodes, ∃ g, Dict.get? b.factors v = some (some (.multi g)) ∧ IsTable B v g := by
    intro v hv
    obtain ⟨f, g, h1, h2, h3⟩ := hb.table v hv
    cases f with
    | multi f => cases h2; exact ⟨_, h1, h3⟩
    | det f => cases h2
  refine ⟨mapM_ok fun p hp => ?_, hb.wf, hb.nodes, hb.parents, ?_, fun v hv => ?_⟩
  · have hv : p.1 ∈ B.nodes := by rw [← hb.nodes, ← hb.keys]; exact Dict.mem_keys_of_mem hp
    obtain ⟨g, h1, _⟩ := hall p.1 hv
    have h2 := Dict.get?_of_mem hkn hp
    rw [h1] at h2
    injection h2 with h2
    rw [multiOnly, ← h2]
    rfl
  · show Dict.keys (b.factors.map fun p => (p.1, stripDet p.2)) = _
    rw [← hb.keys]
    simp [Dict.keys, List.map_map, Function.comp_def]
  · obtain ⟨g, h1, h2⟩ := hall v hv
    refine ⟨g, g, ?_, rfl, h2⟩
    show Dict.get? (b.factors.map fun p => (p.1, stripDet p.2)) v = _
    rw [Dict.get?_map_snd b.factors (fun _ x => stripDet x) v, h1]
    rfl

/-- **C88** (`scmwrite.py:10-14`, `scmread.py:8-14`) a structural causal model saved in a `.bif` or `.xmlbif` file comes back with its names, states and tables, and the
variables with parents as the endogenous ones.

Partial: the conditions of `C33_to_bnet_partial` and of `C75_round_trip_partial` for the tables of `to_bnet`. -/
theorem C88_scm_bif_partial (vt vt' : VType) {m : SCM (storeOf vt : StoreImpl Str S (Fl K)) (labelStoreOf vt : LabelStore Str S)} {B : BN Str S K}
    (hr : m.Rep B) (hB : B.Valid) (hend : ∀ v ∈ B.nodes, B.parents v ≠ [] → v ∈ m.endogenous) (hsub : ∀ v ∈ m.endogenous, v ∈ B.nodes)
    (hroot : ∀ v f, B.parents v = [] → Dict.get? m.base.factors v = some (some f) → f.isDet = false)
    (hcon : ∀ v ∈ B.nodes, B.parents v ≠ [] ∨ ∃ w ∈ B.nodes, v ∈ B.parents w)
    (hok : ∀ b, m.toBnet = .ok b → ∀ v f, (v, some (.multi f)) ∈ b.factors → f.vars = f.rightVars ++ [v] ∧
      (f.rightVars.length ≤ 1 ∨ ∀ p ∈ f.rightVars.head?, (B.states p).length = (B.states v).length))
    (T : FloatText (Fl K)) (asInt : S → Py Int) (ofNat lab : Nat → S) (ofFloat : Fl K → S) (varOrder : Option (List Str))
    {print : Format → PgmpyNet Str S (Fl K) → Str} {parse : Format → Str → Py (PgmpyNet Str S (Fl K))} {f : Format} (hfu : f ≠ .uai)
    (hP : ∀ n, causalNet m = .ok n → parse f (print f n) = .ok n)
    {d : Disk} (hD : d.WF) {s : Str} (hs : format (Path.ofStr s) = .ok f) (hn : place d s ∉ d.folders)
    (hf : (place d s).dropLast ∈ d.folders) :
    ∃ d' m' nodes, save (causalText T asInt ofNat print m varOrder) d s = .ok (d', place d s) ∧ nodes.Perm B.nodes ∧ m'.Rep (B.reorder nodes) ∧
      (∀ v, v ∈ m'.endogenous ↔ v ∈ B.nodes ∧ B.parents v ≠ []) ∧
      ∀ s', place d s' = place d s → Files.read (causalParse (storeOf vt') (labelStoreOf vt') lab ofFloat T parse) d' s' = .ok m' := by
  obtain ⟨b, b1, b2, b3⟩ := C33_to_bnet_partial hr hB hend hsub hroot
  obtain ⟨s1, s2⟩ := strip_represents hB b3
  obtain ⟨n, m', nodes, h1, h2, h3, h4⟩ := C75_round_trip_partial vt vt' hB s2 hcon (by
    intro v g hg
    obtain ⟨p, hp, he⟩ := List.mem_map.1 hg
    injection he with he1 he2
    obtain ⟨w, slot⟩ := p
    simp only at he1 he2
    subst he1
    cases slot with
    | none => cases he2
    | some x => cases x with
      | det x => cases he2
      | multi x => injection he2 with he2; subst he2; exact hok b b1 _ _ hp)
  have hc : causalNet m = .ok n := by
    rw [causalNet, b1, py_ok_bind, s1, py_ok_bind, h1]
  have ht : causalText T asInt ofNat print m varOrder f = .ok (print f n) := by
    have : (do
      let n ← causalNet m
      return print f n : Py Str) = .ok (print f n) := by
      rw [hc]; rfl
    cases f with
    | uai => exact absurd rfl hfu
    | xmlBif => exact this
    | plainBif => exact this
  have hB' := hB.reorder h3
  have hknd : (Dict.keys m'.factors).Nodup := by rw [h4.keys, h4.nodes]; exact hB'.nodes
  have hka : Dict.keys (m'.factors.map (asAny (L := (labelStoreOf vt' : LabelStore Str S)))) = Dict.keys m'.factors := by
    simp [Dict.keys, List.map_map, Function.comp_def, asAny]
  obtain ⟨l, l1, l2, l3⟩ := SCM.facs_of (B := B.reorder nodes) (m'.factors.map (asAny (L := (labelStoreOf vt' : LabelStore Str S)))) (by rw [hka]; exact hknd) (by
    intro v hv
    rw [hka, h4.keys, h4.nodes] at hv
    obtain ⟨f, g, g1, g2, g3⟩ := h4.table v hv
    cases g2
    refine ⟨.multi f, ?_, g3⟩
    have := Dict.get?_map_snd m'.factors (fun _ x => x.map (AnyFactor.multi (L := (labelStoreOf vt' : LabelStore Str S)))) v
    rw [g1] at this
    exact this)
  have hedge : ∀ v, v ∈ SCM.endoOr m'.graph none ↔ v ∈ B.nodes ∧ B.parents v ≠ [] := by
    intro v
    show v ∈ SCM.defaultEndo m'.graph ↔ _
    rw [SCM.mem_defaultEndo h4.wf]
    constructor
    · rintro ⟨p, hp⟩
      have hv : v ∈ (B.reorder nodes).nodes := by rw [← h4.nodes]; exact (h4.wf.ends _ hp).2
      have := (h4.parents v hv p).2 hp
      exact ⟨h3.mem_iff.1 hv, List.ne_nil_of_mem this⟩
    · rintro ⟨hv, hp⟩
      obtain ⟨p, hp⟩ := List.exists_mem_of_ne_nil _ hp
      exact ⟨p, (h4.parents v (h3.mem_iff.2 hv) p).1 hp⟩
  obtain ⟨k1, _, k3⟩ := SCM.rep_built hB' h4.wf h4.nodes h4.parents (l := l) (by rw [l2, hka, h4.keys, h4.nodes]) l3 none true true
    (fun v hv _ a ha => hr.equations v (hend v ((hedge v).1 hv).1 ((hedge v).1 hv).2) ((hedge v).1 hv).1 a
      (fun w hw => ha w (h3.mem_iff.2 hw))) rfl
  have hsave := save_ok.2 ⟨f, _, hs, ht, hn, hf, rfl⟩
  refine ⟨_, _, nodes, hsave, h3, k3, hedge, fun s' hs' => ?_⟩
  obtain ⟨_, _, _, _, f', t', g1, g2, g3, _⟩ := C88_save (parse := causalParse (storeOf vt') (labelStoreOf vt') lab ofFloat T parse) hD hsave
  rw [hs] at g1; cases g1
  rw [ht] at g2; cases g2
  rw [g3 s' hs']
  have key : (parse f (print f n) >>= fun n => toBCauseBNet (storeOf vt') n >>= fun b =>
      SCM.fromModel (L := (labelStoreOf vt' : LabelStore Str S)) ⟨b.graph, b.factors.map asAny, b.domains, b.check⟩) =
      SCM.ofDict m'.graph (l.map fun p => (p.1, some p.2)) none true true := by
    rw [hP n hc, py_ok_bind, h2, py_ok_bind, SCM.fromModel, l1]
  cases f with
  | uai => exact absurd rfl hfu
  | xmlBif => exact key.trans k1
  | plainBif => exact key.trans k1

/-! ### Examples -/

/-- A disk with the working directory `/h`, which has the folder `m` and a file `old.bif` -/
def exDisk : Disk := ⟨["h".toList], [[], ["h".toList], ["h".toList, "m".toList]], [(["h".toList, "old.bif".toList], "old".toList)]⟩

theorem exDisk_wf : exDisk.WF := by
  refine ⟨by decide, by decide⟩

/-- The same place under three names, and names without a format -/
example : place exDisk "m/a.uai".toList = ["h".toList, "m".toList, "a.uai".toList] ∧
    place exDisk "./m//a.uai".toList = place exDisk "m/a.uai".toList ∧ place exDisk "/h/m/./a.uai".toList = place exDisk "m/a.uai".toList ∧
    format (Path.ofStr "m/a.uai/".toList) = .ok .uai ∧ format (Path.ofStr "a.UAI".toList) = .error .valueError ∧
    format (Path.ofStr "a.xmlbif".toList) = .ok .xmlBif ∧ format (Path.ofStr "a.bif".toList) = .ok .plainBif := by
  decide +kernel

/-- The hypotheses of `C88_net_uai_partial` can be met. -/
example (vt vt' : VType) : ∃ (m : DagModel (Factor (IQ vt)) Char Char) (B : BN Char Char ℚ) (d' : Disk)
    (m' : DagModel (Factor (storeOf vt' : StoreImpl Str Nat (Fl ℚ))) Str Nat) (nodes : List Str), Represents m B ∧ B.Valid ∧
    save (netText pyFloats (fun _ _ => []) m (some ['D', 'B', 'A', 'C'])) exDisk "m/a.uai".toList = .ok (d', ["h".toList, "m".toList, "a.uai".toList]) ∧
    Represents m' (B.coded ['D', 'B', 'A', 'C'] id nodes) ∧
    Files.read (netParse (storeOf vt') id pyFloats (fun _ _ => .error .valueError)) d' "./m//a.uai".toList = .ok m' := by
  obtain ⟨m, h1, h2, h3, h4, h5, h6⟩ := netOf_spec (by decide) (netCheck_ten vt)
  have hc := uaiCheck_ten vt
  rw [uaiCheck, h1] at hc
  simp only [Bool.and_eq_true, decide_eq_true_eq, List.all_eq_true, Bool.or_eq_true, List.any_eq_true] at hc
  obtain ⟨⟨⟨⟨c1, c2⟩, c3⟩, c4⟩, c5, c6, c7⟩ := hc
  have ho : ['D', 'B', 'A', 'C'].Perm (BN.ofModel (IQ vt) m : BN Char Char ℚ).nodes :=
    (List.perm_ext_iff_of_nodup c6 h4.nodes).2 fun v => writeOrder_mem c5 v
  obtain ⟨d', m', nodes, k1, k2, k3, k4⟩ := C88_net_uai_partial vt vt' h3 h4 c2 c3 c5 c6 ⟨c4, C63_names_small h4 ho c7,
      fun v hv a ha => (printable_spec h4 c1 v hv a ha).1, fun v hv a ha => (printable_spec h4 c1 v hv a ha).2⟩
    (lab := id) (fun _ _ h => h) (fun _ _ => []) (fun _ _ => .error .valueError) flNat exDisk_wf (s := "m/a.uai".toList)
    (by decide) (by decide) (by decide)
  exact ⟨m, _, d', m', nodes, h3, h4, k1, k3, (k4 _ (by decide)).1⟩

/-- The hypotheses of `C88_scm_uai_partial` can be met. -/
example (vt vt' : VType) (cast : Bool) : ∃ (m : SCM (IS vt PyStr) (LS vt PyStr)) (B : BN PyStr Char ℚ) (d' : Disk)
    (m' : SCM (storeOf vt' : StoreImpl Str Nat (Fl ℚ)) (labelStoreOf vt')) (nodes : List Str), m.Rep B ∧ B.Valid ∧ m.cast = cast ∧
    m.endogenous = [sX, sY, sZ] ∧
    save (causalText pyFloats charInt natChar (fun _ _ => []) m (some [sW, sZ, sY, sX, sU])) exDisk "m/a.uai".toList =
      .ok (d', ["h".toList, "m".toList, "a.uai".toList]) ∧ m'.Rep (B.coded [sW, sZ, sY, sX, sU] id nodes) ∧
    Files.read (causalParse (storeOf vt') (labelStoreOf vt') id flNat pyFloats (fun _ _ => .error .valueError)) d' "./m//a.uai".toList = .ok m' := by
  obtain ⟨l, b, h1, h2⟩ := scmCheck_spec (by decide) (scmCheck_ten vt)
  obtain ⟨m, m1, m2, m3, m4, m5⟩ := h2.model (e := none) (by decide) cast
  have hc := uaiScmCheck_ten vt cast
  rw [uaiScmCheckRows, h2.facs] at hc
  simp only [h1, m1] at hc
  rw [uaiScmCheck] at hc
  simp only [Bool.and_eq_true, decide_eq_true_eq, List.all_eq_true, Bool.or_eq_true, List.any_eq_true, List.mem_range] at hc
  obtain ⟨⟨⟨⟨⟨⟨⟨c1, c2⟩, c3⟩, c4⟩, c5, c6, c7⟩, c8⟩, c9⟩, c10⟩ := hc
  have h4 := h2.valid
  have ho : [sW, sZ, sY, sX, sU].Perm (BN.ofModel (IS vt PyStr) b : BN PyStr Char ℚ).nodes := by
    refine (List.perm_ext_iff_of_nodup c6 h4.nodes).2 fun v => ?_
    rw [writeOrder_mem c5 v, List.mem_append, SCM.exogenous, List.mem_filter, m2.nodes]
    constructor
    · rintro (h | h)
      · exact (c9 v h).1.1
      · exact h.1
    · intro h
      by_cases e : v ∈ m.endogenous
      · exact .inl e
      · exact .inr ⟨h, by simpa using e⟩
  obtain ⟨d', m', nodes, k1, k2, k3, k4, k5⟩ := C88_scm_uai_partial vt vt' m2 h4 h2.norm c2 c3 c5 c6
    ⟨c4, C63_names_small h4 ho c7, fun v hv _ a ha => (printable_spec h4 c1 v hv a ha).1,
      fun v hv _ a ha => (printable_spec h4 c1 v hv a ha).2, c8, fun v hv => (c9 v hv).1.1⟩ pyFloats_nat (fun v hv => (c9 v hv).1.2)
    (fun v hv _ _ _ => (c9 v hv).2) (by
      intro v hv he f hf
      rcases c10 _ (Dict.mem_of_get? hf) with h | h
      · exact absurd h he
      · simpa using h) (lab := id) (fun _ _ h => h) (ofFloat := flNat) (fun i => by simp [flNat]) (fun _ _ => []) (fun _ _ => .error .valueError) exDisk_wf
    (s := "m/a.uai".toList) (by decide) (by decide) (by decide)
  exact ⟨m, _, d', m', nodes, m2, h4, m4, m3, k1, k3, (k5 _ (by decide)).1⟩

/-- `U → X → Y ← W` -/
def gBif : DiGraph PyStr := ⟨[sU, sW, sX, sY], [(sU, sX), (sX, sY), (sW, sY)]⟩

/-- Tables whose own variable comes last -/
def rowsBif : List (SRow PyStr) :=
  [.num [(sU, ['0', '1', '2'])] [q (1/2), q (3/10), q (1/5)] sU,
   .num [(sW, ['0', '1', '2'])] [q (1/4), q (1/4), q (1/2)] sW,
   .fn [(sU, ['0', '1', '2']), (sX, ['0', '1'])] ['0', '1', '1'] sX,
   .num [(sX, ['0', '1']), (sW, ['0', '1', '2']), (sY, ['0', '1'])] [q 1, q 0, q 0, q 1, q 1, q 0, q 0, q 1, q 1, q 0, q 1, q 0] sY]

theorem scmCheck_bif (vt : VType) : scmCheck vt gBif rowsBif [sX, sY] = true := by
  cases vt <;> decide +kernel

/-- What is needed for the export, evaluated -/
def bifScmCheck (B : BN PyStr Char ℚ) (m : SCM (IS vt PyStr) (LS vt PyStr)) : Bool :=
  B.nodes.all (fun v => decide (B.parents v ≠ []) || B.nodes.any fun w => v ∈ B.parents w) &&
    B.nodes.all (fun v => decide (B.parents v = []) || decide (v ∈ m.endogenous)) &&
    m.endogenous.all (fun v => decide (v ∈ B.nodes)) &&
    m.base.factors.all (fun p => decide (B.parents p.1 ≠ []) || p.2.all fun f => !f.isDet) &&
    match m.toBnet with
    | .ok b => b.factors.all fun p => match p.2 with
      | some (.multi f) => decide (f.vars = f.rightVars ++ [p.1]) && (decide (f.rightVars.length ≤ 1) ||
          decide (∀ u ∈ f.rightVars.head?, (B.states u).length = (B.states p.1).length))
      | _ => true
    | .error _ => true

/-- The check on the model built from rows -/
def bifScmCheckRows (vt : VType) (g : DiGraph PyStr) (rows : List (SRow PyStr)) (cast : Bool) : Bool :=
  match facsOf vt rows with
  | .ok l => match bnetOf vt g l with
    | .ok b => match SCM.ofList (I := IS vt PyStr) (L := LS vt PyStr) g (l.map fun p => some p.2) none cast true with
      | .ok m => bifScmCheck (BN.ofModel (IS vt PyStr) b) m
      | .error _ => false
    | .error _ => false
  | .error _ => false

theorem bifScmCheck_ex (vt : VType) (cast : Bool) : bifScmCheckRows vt gBif rowsBif cast = true := by
  cases vt <;> cases cast <;> decide +kernel

/-- The hypotheses of `C88_net_bif_partial` and `C88_scm_bif_partial` can be met, with equations that are kept or cast. -/
example (vt vt' : VType) (cast : Bool) : ∃ (m : SCM (IS vt PyStr) (LS vt PyStr)) (B : BN PyStr Char ℚ), m.Rep B ∧ B.Valid ∧ m.cast = cast ∧
    m.endogenous = [sX, sY] ∧
    (∃ (d' : Disk) (m' : SCM (IS vt' PyStr) (LS vt' PyStr)) (nodes : List Str),
      save (causalText pyFloats charInt natChar (fun _ _ => []) m none) exDisk "old.bif".toList = .ok (d', ["h".toList, "old.bif".toList]) ∧
      nodes.Perm B.nodes ∧ m'.Rep (B.reorder nodes) ∧
      Files.read (causalParse (storeOf vt') (labelStoreOf vt') natChar (fun _ => '0') pyFloats (fun _ _ => causalNet m)) d' "/h/old.bif".toList = .ok m') ∧
    ∃ (b : DagModel (Factor (IS vt PyStr)) PyStr Char) (d' : Disk) (m' : DagModel (Factor (IS vt' PyStr)) PyStr Char) (nodes : List Str), Represents b B ∧
      save (netText pyFloats (fun _ _ => []) b none) exDisk "m/a.xmlbif".toList = .ok (d', ["h".toList, "m".toList, "a.xmlbif".toList]) ∧
      nodes.Perm B.nodes ∧ Represents m' (B.reorder nodes) ∧
      Files.read (netParse (storeOf vt') natChar pyFloats (fun _ _ => toPgmpyBNet b)) d' "m/./a.xmlbif".toList = .ok m' := by
  obtain ⟨l, b, h1, h2⟩ := scmCheck_spec (by decide) (scmCheck_bif vt)
  obtain ⟨m, m1, m2, m3, m4, m5⟩ := h2.model (e := none) (by decide) cast
  have hc := bifScmCheck_ex vt cast
  rw [bifScmCheckRows, h2.facs] at hc
  simp only [h1, m1] at hc
  rw [bifScmCheck] at hc
  simp only [Bool.and_eq_true, decide_eq_true_eq, List.all_eq_true, Bool.or_eq_true, List.any_eq_true] at hc
  obtain ⟨⟨⟨⟨c1, c2⟩, c3⟩, c4⟩, c5⟩ := hc
  have h4 := h2.valid
  have hend : ∀ v ∈ (BN.ofModel (IS vt PyStr) b : BN PyStr Char ℚ).nodes, (BN.ofModel (IS vt PyStr) b : BN PyStr Char ℚ).parents v ≠ [] →
      v ∈ m.endogenous := fun v hv hp => (c2 v hv).resolve_left hp
  have hroot : ∀ v f, (BN.ofModel (IS vt PyStr) b : BN PyStr Char ℚ).parents v = [] → Dict.get? m.base.factors v = some (some f) →
      f.isDet = false := by
    intro v f hp hf
    rcases c4 _ (Dict.mem_of_get? hf) with h | h
    · exact absurd hp h
    · simpa using h
  obtain ⟨b', b1, b2, b3⟩ := C33_to_bnet_partial m2 h4 hend c3 hroot
  rw [b1] at c5
  have hok : ∀ v f, (v, some (.multi f)) ∈ b'.factors → f.vars = f.rightVars ++ [v] ∧
      (f.rightVars.length ≤ 1 ∨ ∀ p ∈ f.rightVars.head?, ((BN.ofModel (IS vt PyStr) b : BN PyStr Char ℚ).states p).length =
        ((BN.ofModel (IS vt PyStr) b : BN PyStr Char ℚ).states v).length) := by
    intro v f hf
    have := List.all_eq_true.1 c5 _ hf
    simpa only [Bool.and_eq_true, decide_eq_true_eq, Bool.or_eq_true] using this
  refine ⟨m, _, m2, h4, m4, m3, ?_, ?_⟩
  · obtain ⟨d', m', nodes, k1, k2, k3, k4, k5⟩ := C88_scm_bif_partial vt vt' m2 h4 hend c3 hroot c1
      (fun b'' hb => by rw [b1] at hb; cases hb; exact hok) pyFloats charInt natChar natChar (fun _ => '0') none
      (print := fun _ _ => []) (parse := fun _ _ => causalNet m) (f := .plainBif) (by decide) (fun n hn => hn) exDisk_wf (s := "old.bif".toList)
      (by decide +kernel) (by decide) (by decide)
    exact ⟨d', m', nodes, k1, k2, k3, k5 _ (by decide)⟩
  · obtain ⟨s1, s2⟩ := strip_represents h4 b3
    obtain ⟨d', m', nodes, k1, k2, k3, k4⟩ := C88_net_bif_partial vt vt' s2 h4 c1 (by
        intro v g hg
        obtain ⟨p, hp, he⟩ := List.mem_map.1 hg
        injection he with he1 he2
        obtain ⟨w, slot⟩ := p
        simp only at he1 he2
        subst he1
        cases slot with
        | none => cases he2
        | some x => cases x with
          | det x => cases he2
          | multi x => injection he2 with he2; subst he2; exact hok _ _ hp) pyFloats natChar none
      (print := fun _ _ => []) (parse := fun _ _ => toPgmpyBNet _) (f := .xmlBif) (by decide) (fun n hn => hn) exDisk_wf (s := "m/a.xmlbif".toList)
      (by decide +kernel) (by decide) (by decide)
    exact ⟨_, d', m', nodes, s2, k1, k2, k3, k4 _ (by decide)⟩

/-- Saves and reads a model, with a library that reads what it was given: the variables, and the tables with the order of their variables -/
def bifThereAndBack (vt : VType) (g : DiGraph PyStr) (rows : List (SRow PyStr)) (s : Str) : Py (List Str × List (List Str × List (Fl ℚ))) := do
  let l ← facsOf vt rows
  let m ← SCM.ofList (I := IS vt PyStr) (L := LS vt PyStr) g (l.map fun p => some p.2) none true true
  let r ← save (causalText pyFloats charInt natChar (fun _ _ => []) m none) exDisk s
  let m' ← Files.read (causalParse (storeOf .numpy) (labelStoreOf .numpy) natChar (fun _ => '0') pyFloats (fun _ _ => causalNet m)) r.1 s
  let vs ← m'.base.factors.mapM fun p => match p.2 with
    | some (.multi f) => do
      let vals ← f.valuesList
      return (f.vars, vals)
    | _ => .error .attributeError
  return (m'.base.graph.nodes, vs)

/-- **C88** a model whose equation has its own variable first: `X = U + 1` (modulo 3) comes back from the file as `X = U - 1`, `X = 0` comes back
with rows that do not sum to one, and when `X` and `U` have different numbers of states the model cannot be saved. With its own variable last `X = U + 1` comes back as it was. -/
theorem C88_bif_order : ∀ vt,
    bifThereAndBack vt ⟨[sU, sX], [(sU, sX)]⟩ [.num [(sU, ['0', '1', '2'])] [q (1/2), q (1/4), q (1/4)] sU,
        .fn [(sX, ['0', '1', '2']), (sU, ['0', '1', '2'])] ['1', '2', '0'] sX] "a.bif".toList =
      .ok ([sU, sX], [([sU], [q (1/2), q (1/4), q (1/4)]), ([sX, sU], [q 0, q 1, q 0, q 0, q 0, q 1, q 1, q 0, q 0])]) ∧
    bifThereAndBack vt ⟨[sU, sX], [(sU, sX)]⟩ [.num [(sU, ['0', '1', '2'])] [q (1/2), q (1/4), q (1/4)] sU,
        .fn [(sU, ['0', '1', '2']), (sX, ['0', '1', '2'])] ['1', '2', '0'] sX] "a.bif".toList =
      .ok ([sU, sX], [([sU], [q (1/2), q (1/4), q (1/4)]), ([sU, sX], [q 0, q 1, q 0, q 0, q 0, q 1, q 1, q 0, q 0])]) ∧
    bifThereAndBack vt ⟨[sU, sX], [(sU, sX)]⟩ [.num [(sU, ['0', '1'])] [q (1/2), q (1/2)] sU,
        .fn [(sX, ['0', '1']), (sU, ['0', '1'])] ['0', '0'] sX] "a.bif".toList =
      .ok ([sU, sX], [([sU], [q (1/2), q (1/2)]), ([sX, sU], [q 1, q 0, q 1, q 0])]) ∧
    bifThereAndBack vt ⟨[sU, sX], [(sU, sX)]⟩ [.num [(sU, ['0', '1', '2'])] [q (1/2), q (1/4), q (1/4)] sU,
        .fn [(sX, ['0', '1']), (sU, ['0', '1', '2'])] ['0', '1', '1'] sX] "a.bif".toList = .error .valueError := by
  intro vt
  refine ⟨?_, ?_, ?_, ?_⟩ <;> cases vt <;> decide +kernel

/-- **C88** (`pgmpy.py:38`) a causal model whose network keeps an equation that is not a multinomial table is not saved in a `.bif` or `.xmlbif` file:
the exception of the export leaves the disk as it was. -/
theorem C88_scm_bif_refused {I : StoreImpl V S (Fl K)} {L : LabelStore V S} {m : SCM I L} {b : DagModel (AnyFactor I L) V S} (hb : m.toBnet = .ok b)
    {v : V} {x : DetFactor L} (hx : (v, some (.det x)) ∈ b.factors) (T : FloatText (Fl K)) (asInt : S → Py Int) (ofNat : Nat → S)
    (print : Format → PgmpyNet V S (Fl K) → Str) (varOrder : Option (List V)) (d : Disk) {s : Str} (hs : ¬ ".uai".toList <:+ (Path.ofStr s).str) :
    causalNet m = .error .keyError ∧ (∀ r, save (causalText T asInt ofNat print m varOrder) d s ≠ .ok r) ∧
      Files.after (causalText T asInt ofNat print m varOrder) d s = d := by
  have hm : b.factors.mapM multiOnly = .error .keyError := by
    generalize b.factors = l at hx
    induction l with
    | nil => cases hx
    | cons p l ih =>
      rw [List.mapM_cons]
      rcases List.mem_cons.1 hx with rfl | hx
      · rfl
      · rw [ih hx]
        obtain ⟨w, _ | _ | _⟩ := p <;> rfl
  have hn : causalNet m = .error .keyError := by
    rw [causalNet, hb, py_ok_bind, hm]; rfl
  have hsv : ∀ r, save (causalText T asInt ofNat print m varOrder) d s ≠ .ok r := fun r hr => by
    obtain ⟨f, t, h1, h2, _⟩ := save_ok.1 hr
    cases f with
    | uai =>
      rw [format, if_neg hs] at h1
      split at h1
      · cases h1
      · split at h1 <;> cases h1
    | xmlBif => rw [causalText, hn] at h2; cases h2; simp
    | plainBif => rw [causalText, hn] at h2; cases h2; simp
  refine ⟨hn, hsv, ?_⟩
  rw [Files.after]
  cases h : save (causalText T asInt ofNat print m varOrder) d s with
  | ok r => exact absurd h (hsv r)
  | error e => rfl

/-- **C88** an intervened model of equations cannot be saved in a `.bif` file: its imposed constants are kept as functions of no variables (C33). -/
theorem C88_intervened_refused : ∀ vt,
    ((do let m ← exScm vt none false
         let m ← m.intervention [(sY, '1')]
         let b ← m.toBnet
         return (b.factors.map fun p : _ × _ => (p.1, SCM.slotDet p.2))) =
      .ok [(sU, false), (sW, false), (sX, false), (sY, true), (sZ, false)]) ∧
    ((do let m ← exScm vt none false
         let m ← m.intervention [(sY, '1')]
         let r ← save (causalText pyFloats charInt natChar (fun _ _ => []) m none) exDisk "a.bif".toList
         return r.2) = .error .keyError) := by
  intro vt
  refine ⟨?_, ?_⟩ <;> cases vt <;> decide +kernel

end Verif.Props
