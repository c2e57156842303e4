import Verif.IO.UaiScm
import Verif.Conv.Pgmpy
import Verif.Util.Text

/-!
# Models in files: `pgmodel.py` `save` and `read`

A disk has folders and files with texts. Simplifications: no links and no `..` in the paths, no rights, no full disks; two slashes at the
start of a path count as one; the texts that pgmpy writes and reads (`BIFWriter`, `BIFReader` and the XML ones) are given by functions,
and writing them does not fail. The options of `save` other than `var_order` are left out.
-/

set_option linter.unusedSectionVars false
set_option linter.unusedSimpArgs false

namespace Verif
namespace Files

/-- `pathlib.Path`: absolute or not, and the parts -/
structure Path where
  abs : Bool
  parts : List Str
  deriving DecidableEq

/-- `Path(filepath)` (`pgmodel.py:76`, `90`): empty parts and `.` are dropped -/
def Path.ofStr (s : Str) : Path := ⟨s.head? == some '/', (pySplit ['/'] s).filter fun p => p ≠ [] ∧ p ≠ ['.']⟩

/-- `str(filepath)` (`pgmodel.py:77-81`) -/
def Path.str (p : Path) : Str :=
  if p.abs then '/' :: pyJoin ['/'] p.parts else if p.parts = [] then ['.'] else pyJoin ['/'] p.parts

/-- `filepath.absolute()` (`pgmodel.py:86`), from the working directory -/
def Path.absolute (cwd : List Str) (p : Path) : List Str := if p.abs then p.parts else cwd ++ p.parts

/-- The working directory, the folders and the texts of the files -/
structure Disk where
  cwd : List Str
  folders : List (List Str)
  files : List (List Str × Str)

/-- `assertions.py:14-18` `assert_file_exists` -/
def Disk.assertExists (d : Disk) (p : List Str) : Py Unit :=
  if p ∈ d.folders ∨ p ∈ Dict.keys d.files then .ok () else .error .osError

/-- `open(filepath, "w+")` and `write` (`bnwrite.py:81-83`): the folder has to be one and the name must not be the one of a folder -/
def Disk.write (d : Disk) (p : List Str) (t : Str) : Py Disk :=
  if p ∈ d.folders ∨ p.dropLast ∉ d.folders then .error .osError else .ok { d with files := Dict.set d.files p t }

/-- `open(filepath)` and reading (`bnread.py:42`, `49`) -/
def Disk.text (d : Disk) (p : List Str) : Py Str :=
  match Dict.get? d.files p with
  | some t => .ok t
  | none => .error .osError

/-- The file formats -/
inductive Format
  | uai | xmlBif | plainBif
  deriving DecidableEq

/-- `pgmodel.py:77-84`, `91-98`: the format is the end of the name -/
def format (p : Path) : Py Format :=
  if ".uai".toList <:+ p.str then .ok .uai
  else if ".xmlbif".toList <:+ p.str then .ok .xmlBif
  else if ".bif".toList <:+ p.str then .ok .plainBif
  else .error .valueError

/-- The text, and the check of the folder `q`. For UAI the text is made before the folder is looked for (`bnwrite.py:33-79`), for the
others after (`bnwrite.py:16-23`). -/
def textFor (txt : Format → Py Str) (d : Disk) (q : List Str) : Format → Py Str
  | .uai => do
    let t ← txt .uai
    d.assertExists q
    return t
  | f => do
    d.assertExists q
    txt f

/-- `pgmodel.py:75-86` `save`; `txt` gives the text in each of the formats. The disk afterwards and the path that is returned. -/
def save (txt : Format → Py Str) (d : Disk) (filepath : Str) : Py (Disk × List Str) := do
  let f ← format (Path.ofStr filepath)
  let t ← textFor txt d ((Path.ofStr filepath).absolute d.cwd).dropLast f
  let d' ← d.write ((Path.ofStr filepath).absolute d.cwd) t
  return (d', (Path.ofStr filepath).absolute d.cwd)

/-- The disk after a call of `save` whose exception, if there is one, is caught -/
def after (txt : Format → Py Str) (d : Disk) (filepath : Str) : Disk :=
  match save txt d filepath with
  | .ok r => r.1
  | .error _ => d

/-- `pgmodel.py:88-99` `read`; `parse` reads a text (`bnread.py:18-23`, `42-54`). -/
def read {M : Type} (parse : Format → Str → Py M) (d : Disk) (filepath : Str) : Py M := do
  let f ← format (Path.ofStr filepath)
  let t ← d.text ((Path.ofStr filepath).absolute d.cwd)
  parse f t

variable {V S S' α : Type} [DecidableEq V] [DecidableEq S] [DecidableEq S'] [Inhabited α]

/-- `bnwrite.py:16-83`: the text of a network; `print` is the writer of pgmpy. `var_order` is only given to `to_uai`. -/
def netText {I : StoreImpl V S α} (T : Uai.FloatText α) (print : Format → Pgmpy.PgmpyNet V S α → Str) (m : DagModel (Factor I) V S)
    (varOrder : Option (List V)) : Format → Py Str
  | .uai => Uai.toUai T m varOrder
  | f => do
    let n ← Pgmpy.toPgmpyBNet m
    return print f n

/-- `bnread.py:18-84`: a network from its text; `parse` is the reader of pgmpy. -/
def netParse (I : StoreImpl Str S α) (lab : Nat → S) (T : Uai.FloatText α) (parse : Format → Str → Py (Pgmpy.PgmpyNet Str S α)) :
    Format → Str → Py (DagModel (Factor I) Str S)
  | .uai, t => Uai.fromUai I lab T t
  | f, t => do
    let n ← parse f t
    Pgmpy.toBCauseBNet I n

/-- The factor of a variable of the network that `to_bnet` makes, for the export: on a deterministic factor `card[v]`
(`pgmpy.py:38`) raises `KeyError`. -/
def multiOnly {I : StoreImpl V S α} {L : LabelStore V S} (p : V × Option (AnyFactor I L)) : Py (V × Option (Factor I)) :=
  match p.2 with
  | none => .ok (p.1, none)
  | some (.multi f) => .ok (p.1, some f)
  | some (.det _) => .error .keyError

variable {K : Type} [Field K] [LinearOrder K] [Inhabited S] [Inhabited S']

/-- `scmwrite.py:11`, `bnwrite.py:17`: the network of pgmpy for a structural causal model -/
def causalNet {I : StoreImpl V S (Fl K)} {L : LabelStore V S} (m : SCM I L) : Py (Pgmpy.PgmpyNet V S (Fl K)) := do
  let b ← m.toBnet
  let fs ← b.factors.mapM multiOnly
  Pgmpy.toPgmpyBNet ⟨b.graph, fs, b.domains, b.check⟩

/-- `scmwrite.py:10-17`: the text of a structural causal model -/
def causalText {I : StoreImpl V S (Fl K)} {L : LabelStore V S} (T : Uai.FloatText (Fl K)) (asInt : S → Py Int) (ofNat : Nat → S)
    (print : Format → Pgmpy.PgmpyNet V S (Fl K) → Str) (m : SCM I L) (varOrder : Option (List V)) : Format → Py Str
  | .uai => Uai.toUaiScm T asInt ofNat m varOrder
  | f => do
    let n ← causalNet m
    return print f n

/-- The factors of a network as factors of a structural causal model -/
def asAny {I : StoreImpl V S α} {L : LabelStore V S} (p : V × Option (Factor I)) : V × Option (AnyFactor I L) := (p.1, p.2.map AnyFactor.multi)

/-- `scmread.py:8-14`, `23-77`: a structural causal model from its text -/
def causalParse (I : StoreImpl Str S (Fl K)) (L : LabelStore Str S) (lab : Nat → S) (ofFloat : Fl K → S) (T : Uai.FloatText (Fl K))
    (parse : Format → Str → Py (Pgmpy.PgmpyNet Str S (Fl K))) : Format → Str → Py (SCM I L)
  | .uai, t => Uai.fromUaiScm I L lab ofFloat T t
  | f, t => do
    let n ← parse f t
    let b ← Pgmpy.toBCauseBNet I n
    SCM.fromModel ⟨b.graph, b.factors.map asAny, b.domains, b.check⟩

end Files
end Verif
