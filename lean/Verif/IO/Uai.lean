import Verif.Util.Text
import Verif.Factor.Canonical
import Verif.Model.Basic
import Verif.Store.Class

/-!
# The UAI format: `readwrite/bnwrite.py`, `readwrite/bnread.py`

A file is its text.  `str` and `float` on numbers are the two fields of `FloatText`; the theorems
say what they need of them.  Regular expressions are over the ASCII digits.  Left out: `print(out)`,
the test that the folder exists, and the parameters that are not the defaults (other prefixes, first
indices and first states).
-/

set_option linter.unusedSectionVars false
set_option linter.unusedSimpArgs false

namespace Verif

namespace Uai

/-- `str(p)` and `float(t)` on the numbers of a table -/
structure FloatText (α : Type) where
  str : α → Str
  float : Str → Py α

/-- `f"{n}"`, `str(n)` for an int that is not negative -/
def natText (n : Nat) : Str := Nat.toDigits 10 n

/-- `int(t)` on a token -/
def pyInt (t : Str) : Py Int :=
  let (neg, d) := match t with
    | '-' :: d => (true, d)
    | '+' :: d => (false, d)
    | d => (false, d)
  if d ≠ [] ∧ d.all Char.isDigit then
    .ok (if neg then -(Nat.ofDigitChars 10 d 0 : Int) else (Nat.ofDigitChars 10 d 0 : Int))
  else .error .valueError

/-- `l[i]`, negative indices counting from the end -/
def pyIndex {X : Type} (l : List X) (i : Int) : Py X :=
  let j := if i < 0 then i + l.length else i
  if j < 0 then .error .indexError else
  match l[j.toNat]? with
  | some x => .ok x
  | none => .error .indexError

/-! ### Writing -/

/-- `bnwrite.py:55`, `73`: a count, a tab and the items -/
def line (l : List Str) : Str := natText l.length ++ '\t' :: (pyJoin [' '] l ++ ['\n'])

/-- The text put together in `bnwrite.py:42-73`: label, number of variables, cardinalities, number of
factors, a line for each scope, an empty line, a line for each table. -/
def text (label : Str) (n : Nat) (cards : List Nat) (nf : Nat) (scopes : List (List Nat)) (vals : List (List Str)) : Str :=
  label ++ '\n' :: (natText n ++ '\n' :: (pyJoin [' '] (cards.map natText) ++ '\n' :: (natText nf ++ '\n' ::
    ((scopes.map fun s => line (s.map natText)).flatten ++ '\n' :: (vals.map line).flatten))))

/-- `bnwrite.py:36-40`: the order in which the variables are written -/
def writeOrder {V : Type} [DecidableEq V] (vs : List V) (varOrder : Option (List V)) : Py (List V) :=
  let order := match varOrder with
    | some (v :: l) => v :: l
    | _ => vs
  if SameSet vs order then .ok order else .error .valueError

/-- `bnwrite.py:53`: the scope of the factor of `v` -/
def scope {F V S : Type} [DecidableEq V] (m : DagModel F V S) (v : V) : Py (List V) := do
  let pa ← m.getParents [v]
  return pa.reverse ++ [v]

section Write
variable {V S α : Type} [DecidableEq V] [DecidableEq S] [Inhabited α] {I : StoreImpl V S α}

/-- `bnwrite.py:60`, `70`: the table of `v`, flattened in the order of its scope -/
def tableOf (m : DagModel (Factor I) V S) (v : V) (sc : List V) : Py (List α) := do
  let f ← Dict.get m.factors v
  match f with
  | none => .error .attributeError
  | some f => do
    let arr ← f.valuesArray sc
    return arr.flat

/-- `bnwrite.py:31-83` `to_uai` with the label `BAYES` -/
def toUai (T : FloatText α) (m : DagModel (Factor I) V S) (varOrder : Option (List V)) : Py Str := do
  let order ← writeOrder m.graph.nodes varOrder
  let sizes ← m.varsizes
  let cards ← order.mapM fun v => Dict.get sizes v
  let scopes ← order.mapM fun v => do
    let sc ← scope m v
    return (v, sc)
  let vals ← scopes.mapM fun p => tableOf m p.1 p.2
  return text "BAYES".toList order.length cards m.factors.length (scopes.map fun p => p.2.map fun x => order.idxOf x)
    (vals.map fun l => l.map T.str)

end Write

/-! ### The numbers in a text -/

/-- A match of `[-+]?(?:\d*\.*\d+)` (`bnread.py:51`) at the start of the text, and what follows it: as many digits as
there are, as many dots as there are and again digits; without digits after the dots (or without dots), only
the first digits. -/
def takeNum (s : Str) : Option (Str × Str) :=
  let (sg, r) : Str × Str := match s with
    | '-' :: r => (['-'], r)
    | '+' :: r => (['+'], r)
    | r => ([], r)
  let d1 := r.takeWhile Char.isDigit
  let r1 := r.dropWhile Char.isDigit
  let dots := r1.takeWhile (· == '.')
  let r2 := r1.dropWhile (· == '.')
  let d2 := r2.takeWhile Char.isDigit
  if d2 ≠ [] then some (sg ++ d1 ++ dots ++ d2, r2.dropWhile Char.isDigit)
  else if d1 ≠ [] then some (sg ++ d1, r1) else none

/-- `re.findall`: leftmost matches that do not overlap, from left to right; `tk` matches at the start of a text. The
fuel is the length of the text. A match does not contain a line break, so it does not matter that the code goes
line by line. -/
def findGo (tk : Str → Option (Str × Str)) : Nat → Str → List Str
  | 0, _ => []
  | _ + 1, [] => []
  | n + 1, c :: s =>
    match tk (c :: s) with
    | some (t, r) => t :: findGo tk n r
    | none => findGo tk n s

/-- `bnread.py:48-52` `get_numbers` -/
def numbers (tk : Str → Option (Str × Str)) (s : Str) : List Str := findGo tk s.length s

/-! ### Reading -/

/-- A computation that takes tokens from the generator -/
abbrev Rd (β : Type) := List Str → Py (β × List Str)

/-- `next(numbers)` -/
def next : Rd Str
  | [] => .error .stopIteration
  | t :: s => .ok (t, s)

/-- `int(next(numbers))` -/
def nextInt : Rd Int := fun s => do
  let (t, s) ← next s
  let i ← pyInt t
  return (i, s)

/-- `float(next(numbers))` -/
def nextFloat {α : Type} (T : FloatText α) : Rd α := fun s => do
  let (t, s) ← next s
  let x ← T.float t
  return (x, s)

/-- A loop over `l` that collects the results -/
def each {X β : Type} (f : X → Rd β) : List X → Rd (List β)
  | [], s => .ok ([], s)
  | x :: l, s => do
    let (y, s) ← f x s
    let (ys, s) ← each f l s
    return (y :: ys, s)

/-- `bnread.py:58`: `f"{var_prefix}{i + init_var_id}"` -/
def varName (i : Nat) : Str := 'V' :: natText i

/-- `w in v` for strings -/
def isSub (w v : Str) : Bool := w <:+: v

/-- `bnread.py:43-45`: the first line without blanks has to be contained in the label -/
def checkLabel (label t : Str) : Py Unit :=
  if isSub ((t.takeWhile (· ≠ '\n')).filter (· ≠ ' ')) label then .ok () else .error .valueError

/-- `bnread.py:67-73` for one variable: its arcs -/
def readArcs (names : List Str) (v : Str) : Rd (List (Str × Str)) := fun s => do
  let (k, s) ← nextInt s
  let (ps, s) ← each (fun (_ : Nat) s => do
    let (i, s) ← nextInt s
    let w ← pyIndex names i
    return (w, s)) (List.range (k - 1).toNat) s
  let (i, s) ← nextInt s
  let w ← pyIndex names i
  if w ≠ v then throw .assertion
  return (ps.map fun p => (p, v), s)

/-- What is read before the tables -/
structure Header (S : Type) where
  names : List Str
  dom : Dom Str S
  graph : DiGraph Str

/-- `bnread.py:57-75`; `lab` is the python int as a state -/
def readHeader {S : Type} (lab : Nat → S) : Rd (Header S) := fun s => do
  let (n, s) ← nextInt s
  let names := (List.range n.toNat).map varName
  let (card, s) ← each (fun _ => nextInt) names s
  let dom := names.zip (card.map fun c => (List.range c.toNat).map lab)
  let (nf, s) ← nextInt s
  if nf ≠ n then throw .assertion
  let (arcs, s) ← each (readArcs names) names s
  return (⟨names, dom, .ofEdges arcs.flatten⟩, s)

/-- `domainutils.py:91-92` `var_parents_domain` (`graphutils.py:91-92` `relevat_vars`) -/
def varParentsDomain {S : Type} (h : Header S) (v : Str) : Py (Dom Str S) := do
  let pa ← h.graph.predecessors v
  subdomain h.dom (if v ∈ pa then pa else pa ++ [v])

/-- `bnread.py:80-81`: the numbers of a table -/
def readTable {α : Type} (T : FloatText α) : Rd (List α) := fun s => do
  let (k, s) ← nextInt s
  each (fun (_ : Nat) => nextFloat T) (List.range k.toNat) s

/-- `bnread.py:78-82`; `mk` makes the factor -/
def readFactors {S α F : Type} (T : FloatText α) (h : Header S) (mk : Str → Dom Str S → List α → Py F) :
    Rd (List (Str × Option F)) :=
  each (fun v s => do
    let (vals, s) ← readTable T s
    let d ← varParentsDomain h v
    let f ← mk v d vals
    return ((v, some f), s)) h.names

/-- `mulitnomial.py:22-34` and `factor.py:149-150` with a string as `left_vars`: `v not in left_vars` asks for a substring -/
def makeLeftStr {S α : Type} [DecidableEq S] [Inhabited α] (I : StoreImpl Str S α) (v : Str) (d : Dom Str S) (vals : List α) :
    Py (Factor I) :=
  Factor.make I d vals none (some ((Dict.keys d).filter fun w => !isSub w v))

/-- `bnread.py:35-84` `from_uai` -/
def fromUai {S α : Type} [DecidableEq S] [Inhabited α] (I : StoreImpl Str S α) (lab : Nat → S) (T : FloatText α) (t : Str) :
    Py (DagModel (Factor I) Str S) := do
  checkLabel "BAYES".toList t
  let (h, s) ← readHeader lab (numbers takeNum t)
  let (fs, _) ← readFactors T h (makeLeftStr I) s
  DagModel.ofDict h.graph fs true

end Uai
end Verif
