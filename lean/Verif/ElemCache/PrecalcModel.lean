import Verif.ElemCache.Model

/-!
# MatrixElementCache.cpp: the precalculation methods
-/

namespace PI

/-- `precalculateMultipole(basis, k)` (MatrixElementCache.cpp:502-505). -/
noncomputable def MEC.preMultipole (c : MEC) (basis : List (Option QN)) (k : ℤ) : MEC := c.precalculate basis k none k true false false
/-- `precalculateRadial(basis, k)` (MatrixElementCache.cpp:507-510). -/
noncomputable def MEC.preRadial (c : MEC) (basis : List (Option QN)) (k : ℤ) : MEC := c.precalculate basis k none k false false true
/-- `precalculateElectricMomentum(basis, q)` (MatrixElementCache.cpp:512-515); `none` is `INT_MAX`. -/
noncomputable def MEC.preElectric (c : MEC) (basis : List (Option QN)) (q : Option ℤ) : MEC := c.precalculate basis 1 q 1 true false false
/-- `precalculateMagneticMomentum(basis, q)` (MatrixElementCache.cpp:517-520). -/
noncomputable def MEC.preMagnetic (c : MEC) (basis : List (Option QN)) (q : Option ℤ) : MEC := c.precalculate basis 1 q 0 false true false
/-- `precalculateDiamagnetism(basis, k, q)` (MatrixElementCache.cpp:522-525). -/
noncomputable def MEC.preDiamagnetism (c : MEC) (basis : List (Option QN)) (k : ℤ) (q : Option ℤ) : MEC := c.precalculate basis k q 2 true false false

/-- `getElectricDipole(row, col)` (MatrixElementCache.cpp:350-352). -/
noncomputable def MEC.getElectricDipole (E : CacheEnv) (c : MEC) (file : Rows) (row col : QN) : Out ℝ × MEC × Rows :=
  c.getElectricMultipole E file row col 1 1

/-- `getDiamagnetism(row, col, k)` (MatrixElementCache.cpp:359-362). -/
noncomputable def MEC.getDiamagnetism (E : CacheEnv) (c : MEC) (file : Rows) (row col : QN) (k : ℤ) : Out ℝ × MEC × Rows :=
  match c.getElectricMultipole E file row col 2 k with
  | (.ok v, c, file) => (.ok (2 / 3 * E.C.e * v), c, file)
  | r => r

end PI
