import Verif.Legacy.Elem
import Verif.Legacy.KeyModel

/-! # C84: the constants; C55: the order of the two start states -/

namespace PI

/-- The values of Constants.hpp:23-26, 39-40. -/
noncomputable def Units.actual : Units := ⟨6579683.920757349, 5142206707.0, 2350517550.0, 5.2917721067e-05, 1, 2.0023192⟩

/-- `sqrt_inverse_electric_constant` (Constants.hpp:28-29), a decimal number in the source. -/
noncomputable def sqrtKe : ℝ := 0.7717003798774048

/-- `reduced_planck_constant` (Constants.hpp:36). -/
noncomputable def Units.hbar (U : Units) : ℝ := U.GHz * U.um * U.G / U.Vcm

/-- `speed_of_light` (Constants.hpp:37). -/
noncomputable def Units.c (U : Units) : ℝ := 137.035999139 * U.Vcm / U.G

/-- `alpha` of the model potential (Wavefunction.cpp:50). -/
noncomputable def alphaConst : ℝ := 7.2973525664e-3

/-- **C84** (constants): for every choice of the four units the constants are those of atomic units expressed in them: k e² / a₀ = E_h, e a₀ E = E_h for the unit field, μ_B B = E_h / 2, the diamagnetic energy
e² a₀² B² / m = E_h, ħ² / (m a₀²) = E_h, and k e² / (ħ c) is the fine-structure constant. -/
theorem C84_units (U : Units) (h : U.um ≠ 0 ∧ U.Vcm ≠ 0 ∧ U.GHz ≠ 0 ∧ U.G ≠ 0) :
    U.ke * U.e ^ 2 / U.um = U.GHz ∧ U.e * U.um * U.Vcm = U.GHz ∧ U.bohr * U.G = U.GHz / 2 ∧ U.e ^ 2 * U.um ^ 2 * U.G ^ 2 / U.mass = U.GHz ∧
    U.mass * U.invMass = 1 ∧ U.hbar ^ 2 / (U.mass * U.um ^ 2) = U.GHz ∧ U.hbar * U.e / (2 * U.mass) = U.bohr ∧ U.ke * U.e ^ 2 / (U.hbar * U.c) = 1 / 137.035999139 := by
  obtain ⟨h1, h2, h3, h4⟩ := h
  unfold Units.ke Units.e Units.bohr Units.mass Units.invMass Units.hbar Units.c
  refine ⟨?_, ?_, ?_, ?_, ?_, ?_, ?_, ?_⟩ <;> field_simp <;> norm_num

/-- **C84** (constants): the decimal numbers of the source agree with what they stand for to 16 and 11 digits. -/
theorem C84_constants : |sqrtKe - Real.sqrt Units.actual.ke| ≤ 1e-16 ∧ |alphaConst - 1 / 137.035999139| ≤ 1e-13 ∧
    (Units.actual.um ≠ 0 ∧ Units.actual.Vcm ≠ 0 ∧ Units.actual.GHz ≠ 0 ∧ Units.actual.G ≠ 0) := by
  refine ⟨?_, ?_, ?_⟩
  · have lo : (0.7717003798774047 : ℝ) ≤ Real.sqrt Units.actual.ke := by
      apply Real.le_sqrt_of_sq_le
      unfold Units.ke Units.actual
      norm_num
    have hi : Real.sqrt Units.actual.ke ≤ (0.7717003798774049 : ℝ) := by
      rw [Real.sqrt_le_left (by norm_num)]
      unfold Units.ke Units.actual
      norm_num
    unfold sqrtKe
    rw [abs_le]
    constructor <;> norm_num at lo hi ⊢ <;> linarith
  · unfold alphaConst
    rw [abs_le]
    constructor <;> norm_num
  · unfold Units.actual
    norm_num

theorem oldOrder_comm (s t : Old1) : oldOrder s t = oldOrder t s := by
  unfold oldOrder
  by_cases h1 : s.le t = true
  · by_cases h2 : t.le s = true
    · have e : s = t := by
        simp only [Old1.le, decide_eq_true_eq] at h1 h2
        obtain ⟨n, l, j, m⟩ := s
        obtain ⟨n', l', j', m'⟩ := t
        simp only [Old1.mk.injEq] at *
        omega
      rw [e]
    · rw [if_pos h1, if_neg h2]
  · by_cases h2 : t.le s = true
    · rw [if_neg h1, if_pos h2]
    · exfalso
      simp only [Old1.le, decide_eq_true_eq] at h1 h2
      omega

/-- **C55** (order of the atoms): exchanging the quantum numbers of the two atoms in the configuration does not change the common one-atom basis, neither its states and their indices nor the configuration stored with it. -/
theorem C55_exchange (P : ConfNum) (c c' : Config) (hsp : c.at "species1" = c.at "species2") (hsp' : c'.at "species1" = c'.at "species2")
    (hx : ∀ k ∈ ["n", "l", "j", "m"], c'.at (k ++ "1") = c.at (k ++ "2") ∧ c'.at (k ++ "2") = c.at (k ++ "1"))
    (ho : ∀ k ∈ ["species1", "deltaNSingle", "deltaLSingle", "deltaJSingle", "deltaMSingle", "missingCalc", "missingWhittaker"], c'.at k = c.at k) (b : OldBasisOne) :
    OldBasisOne.make P c .both = .ok b ↔ OldBasisOne.make P c' .both = .ok b := by
  have hn := hx "n" (by simp)
  have hl := hx "l" (by simp)
  have hj := hx "j" (by simp)
  have hm := hx "m" (by simp)
  have e1 : ∀ k : String, k ∈ ["species1", "deltaNSingle", "deltaLSingle", "deltaJSingle", "deltaMSingle", "missingCalc", "missingWhittaker"] → c'.at k = c.at k := ho
  have hb : basisConfigure P c' = basisConfigure P c := by
    unfold basisConfigure
    rw [e1 "deltaNSingle" (by simp), e1 "deltaLSingle" (by simp), e1 "deltaJSingle" (by simp), e1 "deltaMSingle" (by simp), e1 "missingCalc" (by simp), e1 "missingWhittaker" (by simp)]
  have r1 : readOld1 P c' "n1" "l1" "j1" "m1" = readOld1 P c "n2" "l2" "j2" "m2" := by
    unfold readOld1
    rw [show c'.at "n1" = c.at "n2" from hn.1, show c'.at "l1" = c.at "l2" from hl.1, show c'.at "j1" = c.at "j2" from hj.1, show c'.at "m1" = c.at "m2" from hm.1]
  have r2 : readOld1 P c' "n2" "l2" "j2" "m2" = readOld1 P c "n1" "l1" "j1" "m1" := by
    unfold readOld1
    rw [show c'.at "n2" = c.at "n1" from hn.2, show c'.at "l2" = c.at "l1" from hl.2, show c'.at "j2" = c.at "j1" from hj.2, show c'.at "m2" = c.at "m1" from hm.2]
  unfold OldBasisOne.make
  dsimp only
  rw [r1, r2, hb, ← hsp', e1 "species1" (by simp), ← hsp]
  cases readOld1 P c "n1" "l1" "j1" "m1" with
  | ok s =>
    cases readOld1 P c "n2" "l2" "j2" "m2" with
    | ok t =>
      simp only [Out.ok_bind]
      rw [oldOrder_comm s t]
    | throw => simp [Bind.bind, Out.bind]
    | ub => simp [Bind.bind, Out.bind]
  | throw => cases readOld1 P c "n2" "l2" "j2" "m2" <;> simp [Bind.bind, Out.bind]
  | ub => cases readOld1 P c "n2" "l2" "j2" "m2" <;> simp [Bind.bind, Out.bind]

/-- Two configurations that meet the hypotheses: 60 S and 61 P, and the same states exchanged. -/
example :
    let o := ["species1", "species2", "deltaNSingle", "deltaLSingle", "deltaJSingle", "deltaMSingle", "missingCalc", "missingWhittaker"].map fun k => (k.toList, "1".toList)
    let c : Config := [("n1", "60"), ("l1", "0"), ("j1", "0.5"), ("m1", "0.5"), ("n2", "61"), ("l2", "1"), ("j2", "1.5"), ("m2", "-0.5")].map (fun x => (x.1.toList, x.2.toList)) ++ o
    let c' : Config := [("n1", "61"), ("l1", "1"), ("j1", "1.5"), ("m1", "-0.5"), ("n2", "60"), ("l2", "0"), ("j2", "0.5"), ("m2", "0.5")].map (fun x => (x.1.toList, x.2.toList)) ++ o
    c.at "species1" = c.at "species2" ∧ c'.at "species1" = c'.at "species2" ∧
    (∀ k ∈ ["n", "l", "j", "m"], c'.at (k ++ "1") = c.at (k ++ "2") ∧ c'.at (k ++ "2") = c.at (k ++ "1")) ∧
    (∀ k ∈ ["species1", "deltaNSingle", "deltaLSingle", "deltaJSingle", "deltaMSingle", "missingCalc", "missingWhittaker"], c'.at k = c.at k) ∧
    c.at "n1" ≠ c'.at "n1" := by decide +kernel

end PI
