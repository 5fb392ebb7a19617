import Verif.ElemCache.Model
import Verif.State.Model

/-!
# MatrixElementCache.cpp:137-205, `loadElectricDipoleDB`

A CSV file with reduced dipole elements of transitions is read; each of them is divided by its angular
factors and put into the radial cache, from which all dipole elements between the two levels follow.
Tokenizing and number syntax are not modelled: a line is already classified by what `stoi`, `stof`,
`stod` do with it.
-/

namespace PI

/-- The seven columns of a line that are read (MatrixElementCache.cpp:155-161): the two levels and the
reduced matrix element in atomic units. -/
structure DipRow where
  n1 : ℤ
  l1 : ℤ
  j1 : ℤ
  n2 : ℤ
  l2 : ℤ
  j2 : ℤ
  val : ℝ

/-- A line of the file: seven numbers; a token that is not a number (`std::invalid_argument`, caught,
MatrixElementCache.cpp:178-183; the header is such a line); a number that does not fit
(`std::out_of_range`, not caught); fewer than seven tokens (`tk_vec[i]` past the end). -/
inductive DipLine where
  | row (r : DipRow)
  | invalid
  | tooLarge
  | short

/-- The spin (doubled) used for the species (MatrixElementCache.cpp:139-142). -/
def dipoleSpin (species : String) : Out ℤ :=
  match species.toList.getLast? with
  | none => .ub
  | some c => if c.isDigit then .ok (((c.toNat : ℤ) - ('0'.toNat : ℤ)) - 1) else .ok 1

/-- `missing.insert(key)` without looking whether the key is cached (MatrixElementCache.cpp:174, 176). -/
def MEC.demand (c : MEC) (k : CKey) : MEC :=
  if k ∈ c.missing then c else { c with missing := c.missing ++ [k] }

/-- The radial key of a row (MatrixElementCache.cpp:167-168). -/
def DipRow.key (m : Method) (species : String) (r : DipRow) : RadKey :=
  RadKey.make m species 1 r.n1 r.n2 r.l1 r.l2 r.j1 r.j2

/-- The reading loop (MatrixElementCache.cpp:150-186): outcome with the keys and values (in µm) of the
rows, and the cache with the needed keys marked as missing. -/
noncomputable def MEC.readDipoles (u : ℝ) (species : String) (s : ℤ) :
    List DipLine → MEC → Out (List (RadKey × ℝ)) × MEC
  | [], c => (.ok [], c)
  | .invalid :: ls, c => MEC.readDipoles u species s ls c
  | .tooLarge :: _, c => (.throw, c)
  | .short :: _, c => (.ub, c)
  | .row r :: ls, c =>
    let c' := (c.demand (.comS (ComKey.make s 1 r.l1 r.l2 r.j1 r.j2).1)).demand (.mul (MulKey.make 1 r.l1 r.l2).1)
    match MEC.readDipoles u species s ls c' with
    | (.ok raw, c'') => (.ok ((r.key c.method species, r.val * u) :: raw), c'')
    | (.throw, c'') => (.throw, c'')
    | (.ub, c'') => (.ub, c'')

/-- `map[key]` (MatrixElementCache.cpp:200): a missing key is inserted with value 0. -/
noncomputable def MEC.bracket (c : MEC) (k : CKey) : ℝ × MEC :=
  (((c.cache.insert k 0).get k).getD 0, { c with cache := c.cache.insert k 0 })

/-- `cache_radial[key1] = val` (MatrixElementCache.cpp:202): overwrites. -/
def Rows.set (r : Rows) (k : CKey) (v : ℝ) : Rows := r.filter (fun e => !decide (e.1 = k)) ++ [(k, v)]

/-- The storing loop (MatrixElementCache.cpp:193-203).  The angular keys are formed from the members of
the radial key, that is, after it has put the two levels into its own order.  If the product of the
factors is zero the quotient is an infinity or NaN, which the real numbers of the model do not have: the
model stops there with `ub`. -/
noncomputable def MEC.storeDipoles (s : ℤ) : List (RadKey × ℝ) → MEC → Out Unit × MEC
  | [], c => (.ok (), c)
  | (k, v) :: raw, c =>
    let k3 := ComKey.make s 1 k.l.1 k.l.2 k.j.1 k.j.2
    let k4 := MulKey.make 1 k.l.1 k.l.2
    let x3 := c.bracket (.comS k3.1)
    let x4 := x3.2.bracket (.mul k4.1)
    let d := k3.2 * x3.1 * k4.2 * x4.1
    if d = 0 then (.ub, x4.2) else
    MEC.storeDipoles s raw { x4.2 with cache := x4.2.cache.set (.rad k) (v / d) }

/-- `loadElectricDipoleDB(path, species)` (MatrixElementCache.cpp:137-205); `u` is `au2um`.  Outcome,
cache, database file. -/
noncomputable def MEC.loadElectricDipoleDB (E : CacheEnv) (u : ℝ) (c : MEC) (file : Rows)
    (lines : List DipLine) (species : String) : Out Unit × MEC × Rows :=
  match dipoleSpin species with
  | .throw => (.throw, c, file)
  | .ub => (.ub, c, file)
  | .ok s =>
    match c.readDipoles u species s lines with
    | (.throw, c) => (.throw, c, file)
    | (.ub, c) => (.ub, c, file)
    | (.ok raw, c) =>
      match c.update E file with
      | (.throw, c, file) => (.throw, c, file)
      | (.ub, c, file) => (.ub, c, file)
      | (.ok _, c, file) => ((c.storeDipoles s raw).1, (c.storeDipoles s raw).2, file)

/-- What a user can do with the cache, including loading dipole elements. -/
inductive DOp where
  | base (o : COp)
  | loadDipoles (lines : List DipLine) (species : String)

/-- Cache and file after an operation, whatever its outcome. -/
noncomputable def DOp.run (E : CacheEnv) (u : ℝ) (o : DOp) (c : MEC) (file : Rows) : MEC × Rows :=
  match o with
  | .base o => (o.run E c file).2
  | .loadDipoles lines species => (c.loadElectricDipoleDB E u file lines species).2

/-- A history of such operations. -/
noncomputable def runD (E : CacheEnv) (u : ℝ) : List DOp → MEC → Rows → MEC × Rows
  | [], c, f => (c, f)
  | o :: os, c, f => runD E u os (o.run E u c f).1 (o.run E u c f).2

end PI
