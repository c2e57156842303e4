import Verif.Py.Basic
import Mathlib.Data.Rat.Floor

/-!
# Colours (`util/plotutils.py`)
-/

namespace Verif.Plot

/-- `int(x)` of a number: truncation towards zero. Numbers are exact here; in the code `r * 255` is rounded to a float. -/
def truncInt (x : ℚ) : ℤ := if 0 ≤ x then ⌊x⌋ else ⌈x⌉

/-- Zeros on the left up to two characters. -/
def pad2 (l : List Char) : List Char := List.replicate (2 - l.length) '0' ++ l

/-- The format `{n:02x}` of an integer: hexadecimal digits, filled with zeros after the sign -/
def hex2 : ℤ → List Char
  | .ofNat n => pad2 (Nat.toDigits 16 n)
  | .negSucc n => '-' :: Nat.toDigits 16 (n + 1)

/-- `plotutils.py:5-17` `rgb_to_hex`; unpacking fewer than three components raises `ValueError` -/
def rgbToHex (rgb : List ℚ) : Py (List Char) :=
  match rgb.take 3 with
  | [r, g, b] => .ok ('#' :: (hex2 (truncInt (r * 255)) ++ hex2 (truncInt (g * 255)) ++ hex2 (truncInt (b * 255))))
  | _ => .error .valueError

/-- `np.linspace(0, 1, n)` (`plotutils.py:25`): `ValueError` for a negative number of points, `[0]` for one point -/
def linspace01 : ℤ → Py (List ℚ)
  | .negSucc _ => .error .valueError
  | .ofNat n => .ok ((List.range n).map fun (i : ℕ) => (i : ℚ) / (n - 1))

/-- `plotutils.py:20-33` `get_linear_colors`; the colour map of matplotlib is a parameter -/
def linearColors (cmap : ℚ → List ℚ) (n : ℤ) : Py (List (List Char)) := do
  let values ← linspace01 n
  values.mapM fun v => rgbToHex (cmap v)

end Verif.Plot
