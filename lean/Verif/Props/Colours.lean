import Verif.Util.Plot
import Mathlib.Tactic.Linarith
import Mathlib.Tactic.NormNum
import Mathlib.Tactic.IntervalCases
import Mathlib.Tactic.FieldSimp

/-!
# Colours as text (C121)
-/

set_option linter.unusedSectionVars false
set_option linter.unusedSimpArgs false

namespace Verif.Props
open Verif Verif.Plot

/-- `b` is the byte of a component: the greatest with `b / 255` not more than it. -/
def IsByte (x : ℚ) (b : ℕ) : Prop := b < 256 ∧ (b : ℚ) ≤ x * 255 ∧ x * 255 < b + 1

/-- The two hexadecimal digits of a byte. -/
def twoDigits (b : ℕ) : List Char := [Nat.digitChar (b / 16), Nat.digitChar (b % 16)]

theorem hex2_byte : ∀ b : ℕ, b < 256 → hex2 (b : ℤ) = twoDigits b := by decide +kernel

theorem twoDigits_inj : ∀ b < 256, ∀ c < 256, twoDigits b = twoDigits c → b = c := by
  intro b hb c hc h
  have h1 : Nat.digitChar (b / 16) = Nat.digitChar (c / 16) := (List.cons.inj h).1
  have h2 : Nat.digitChar (b % 16) = Nat.digitChar (c % 16) := (List.cons.inj (List.cons.inj h).2).1
  have key : ∀ i < 16, ∀ j < 16, Nat.digitChar i = Nat.digitChar j → i = j := by decide +kernel
  have := key _ (by omega) _ (by omega) h1
  have := key _ (by omega) _ (by omega) h2
  omega

theorem truncInt_byte {x : ℚ} {b : ℕ} (h : IsByte x b) : truncInt (x * 255) = b := by
  have h0 : 0 ≤ x * 255 := le_trans (Nat.cast_nonneg b) h.2.1
  rw [truncInt, if_pos h0, Int.floor_eq_iff]
  exact ⟨by exact_mod_cast h.2.1, by exact_mod_cast h.2.2⟩

theorem isByte_unique {x : ℚ} {b c : ℕ} (h : IsByte x b) (k : IsByte x c) : b = c := by
  have := (truncInt_byte h).symm.trans (truncInt_byte k)
  exact_mod_cast this

theorem isByte_exists {x : ℚ} (h0 : 0 ≤ x) (h1 : x ≤ 1) : ∃ b, IsByte x b := by
  have hx : 0 ≤ x * 255 := by positivity
  refine ⟨⌊x * 255⌋₊, ?_, Nat.floor_le hx, Nat.lt_floor_add_one _⟩
  have : ⌊x * 255⌋₊ ≤ 255 := by
    have h : x * 255 ≤ ((255 : ℕ) : ℚ) := by push_cast; linarith
    simpa using Nat.floor_le_floor h
  omega

/-- **C121** the text of a colour with components between 0 and 1 is `#` and the two hexadecimal digits of each byte, whatever
follows the three components (the opacity). -/
theorem C121_text {r g b : ℚ} (rest : List ℚ) (hr : 0 ≤ r ∧ r ≤ 1) (hg : 0 ≤ g ∧ g ≤ 1) (hb : 0 ≤ b ∧ b ≤ 1) :
    ∃ x y z, IsByte r x ∧ IsByte g y ∧ IsByte b z ∧
      rgbToHex (r :: g :: b :: rest) = .ok ('#' :: (twoDigits x ++ twoDigits y ++ twoDigits z)) := by
  obtain ⟨x, hx⟩ := isByte_exists hr.1 hr.2
  obtain ⟨y, hy⟩ := isByte_exists hg.1 hg.2
  obtain ⟨z, hz⟩ := isByte_exists hb.1 hb.2
  refine ⟨x, y, z, hx, hy, hz, ?_⟩
  simp only [rgbToHex, List.take_succ_cons, List.take_zero]
  rw [truncInt_byte hx, truncInt_byte hy, truncInt_byte hz, hex2_byte x hx.1, hex2_byte y hy.1, hex2_byte z hz.1]

/-- **C121** two colours get the same text if and only if their bytes are the same. -/
theorem C121_same {r g b r' g' b' : ℚ} {x y z x' y' z' : ℕ} (hr : IsByte r x) (hg : IsByte g y) (hb : IsByte b z)
    (hr' : IsByte r' x') (hg' : IsByte g' y') (hb' : IsByte b' z') :
    rgbToHex [r, g, b] = rgbToHex [r', g', b'] ↔ x = x' ∧ y = y' ∧ z = z' := by
  simp only [rgbToHex, List.take_succ_cons, List.take_zero]
  rw [truncInt_byte hr, truncInt_byte hg, truncInt_byte hb, hex2_byte x hr.1, hex2_byte y hg.1, hex2_byte z hb.1,
    truncInt_byte hr', truncInt_byte hg', truncInt_byte hb', hex2_byte x' hr'.1, hex2_byte y' hg'.1, hex2_byte z' hb'.1]
  constructor
  · intro h
    have h := (List.cons.inj (Except.ok.inj h)).2
    obtain ⟨h1, h3⟩ := List.append_inj h rfl
    obtain ⟨h1, h2⟩ := List.append_inj h1 rfl
    exact ⟨twoDigits_inj x hr.1 x' hr'.1 h1, twoDigits_inj y hg.1 y' hg'.1 h2, twoDigits_inj z hb.1 z' hb'.1 h3⟩
  · rintro ⟨rfl, rfl, rfl⟩; rfl

/-- **C121** the bytes of a colour can be any: the components `b / 255` have the bytes `b`. -/
theorem C121_every {b : ℕ} (hb : b < 256) : IsByte ((b : ℚ) / 255) b := by
  have : (b : ℚ) / 255 * 255 = b := by field_simp
  exact ⟨hb, this.ge, by rw [this]; linarith⟩

/-- **C121** fewer than three components are refused. -/
theorem C121_refused {rgb : List ℚ} (h : rgb.length < 3) : rgbToHex rgb = .error .valueError := by
  match rgb, h with
  | [], _ => rfl
  | [_], _ => rfl
  | [_, _], _ => rfl
  | _ :: _ :: _ :: _, h => simp at h; omega

/-- **C121** beyond 1 the texts are no colours any more: two different colours get the same text, of eight characters, and a negative
component puts a sign into it. -/
theorem C121_outside :
    rgbToHex [256 / 255, 17 / 255, 17 / 255] = .ok "#1001111".toList ∧ rgbToHex [16 / 255, 1 / 255, 273 / 255] = .ok "#1001111".toList ∧
    rgbToHex [-1, 0, 0] = .ok "#-ff0000".toList := by
  refine ⟨?_, ?_, ?_⟩ <;> decide +kernel

/-- **C121** `get_linear_colors` gives `n` colours, the `i`-th one that of the colour map at `i / (n - 1)`: the ends of the map are
the first and the last. -/
theorem C121_linear {cmap : ℚ → List ℚ} {n : ℕ} {l : List (List Char)} (h : linearColors cmap n = .ok l) :
    l.length = n ∧ ∀ i (hi : i < l.length), rgbToHex (cmap ((i : ℚ) / (n - 1))) = .ok l[i] := by
  have key : ∀ (xs : List ℚ) (l : List (List Char)), xs.mapM (fun v => rgbToHex (cmap v)) = .ok l →
      List.Forall₂ (fun v t => rgbToHex (cmap v) = .ok t) xs l := by
    intro xs
    induction xs with
    | nil => intro l h; rw [List.mapM_nil] at h; cases h; exact .nil
    | cons v xs ih =>
      intro l h
      rw [List.mapM_cons] at h
      cases e : rgbToHex (cmap v) with
      | error _ => rw [e] at h; cases h
      | ok t =>
        cases e' : xs.mapM (fun v => rgbToHex (cmap v)) with
        | error _ => rw [e, e'] at h; cases h
        | ok l' =>
          rw [e, e'] at h
          cases h
          exact .cons e (ih l' e')
  have k := key _ _ (show ((List.range n).map fun (i : ℕ) => (i : ℚ) / (n - 1)).mapM _ = _ from h)
  have hl := k.length_eq
  rw [List.length_map, List.length_range] at hl
  refine ⟨hl.symm, fun i hi => ?_⟩
  have := k.get (i := i) (by rw [List.length_map, List.length_range]; omega) hi
  simpa using this

/-- **C121** a colour map with colours of at least three components is always answered. -/
theorem C121_answered {cmap : ℚ → List ℚ} (hc : ∀ v, 3 ≤ (cmap v).length) (n : ℤ) :
    (∃ l, linearColors cmap n = .ok l) ↔ 0 ≤ n := by
  have one : ∀ v, ∃ t, rgbToHex (cmap v) = .ok t := by
    intro v
    have := hc v
    match h : cmap v, this with
    | r :: g :: b :: rest, _ => exact ⟨_, rfl⟩
  have all : ∀ xs : List ℚ, ∃ l, xs.mapM (fun v => rgbToHex (cmap v)) = .ok l := by
    intro xs
    induction xs with
    | nil => exact ⟨[], rfl⟩
    | cons v xs ih =>
      obtain ⟨t, ht⟩ := one v
      obtain ⟨l, hl⟩ := ih
      exact ⟨t :: l, by rw [List.mapM_cons, ht, hl]; rfl⟩
  cases n with
  | ofNat n => exact ⟨fun _ => Int.natCast_nonneg n, fun _ => all _⟩
  | negSucc n =>
    constructor
    · rintro ⟨l, hl⟩; cases hl
    · intro h; exact absurd h (by simp)

/-- A colour, and the ends of a colour map. -/
theorem C121_example :
    rgbToHex [1, 1 / 2, 0, 1] = .ok "#ff7f00".toList ∧
    linearColors (fun v => [v, 0, 1 - v, 1]) 3 = .ok ["#0000ff".toList, "#7f007f".toList, "#ff0000".toList] := by
  refine ⟨?_, ?_⟩ <;> decide +kernel

end Verif.Props
