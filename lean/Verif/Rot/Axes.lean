import Verif.Rot.AxesModel
import Verif.Rot.Vector
import Verif.Rot.FieldCov
import Verif.Rot.PairThm
import Mathlib.Tactic.LinearCombination
import Mathlib.Tactic.FieldSimp

/-!
# C108: rotations given by two axes
-/

namespace PI

open Matrix

theorem atan2_cos (y x : ℝ) : Real.sqrt (x * x + y * y) * Real.cos (atan2 y x) = x := by
  have h := Complex.norm_mul_cos_arg (⟨x, y⟩ : ℂ)
  rw [Complex.norm_def, Complex.normSq_mk] at h
  exact h

theorem atan2_sin (y x : ℝ) : Real.sqrt (x * x + y * y) * Real.sin (atan2 y x) = y := by
  have h := Complex.norm_mul_sin_arg (⟨x, y⟩ : ℂ)
  rw [Complex.norm_def, Complex.normSq_mk] at h
  exact h

theorem atan2_unit (y x : ℝ) (h : x * x + y * y = 1) : Real.cos (atan2 y x) = x ∧ Real.sin (atan2 y x) = y := by
  have h1 := atan2_cos y x
  have h2 := atan2_sin y x
  rw [h, Real.sqrt_one, one_mul] at h1 h2
  exact ⟨h1, h2⟩

theorem atan2_range (y x : ℝ) : -Real.pi < atan2 y x ∧ atan2 y x ≤ Real.pi := ⟨Complex.neg_pi_lt_arg _, Complex.arg_le_pi _⟩

theorem euler_entries (a b g : ℝ) : buildRotatorEuler a b g =
    !![Real.cos a * Real.cos b * Real.cos g - Real.sin a * Real.sin g, -(Real.cos a * Real.cos b * Real.sin g) - Real.sin a * Real.cos g, Real.cos a * Real.sin b;
      Real.sin a * Real.cos b * Real.cos g + Real.cos a * Real.sin g, -(Real.sin a * Real.cos b * Real.sin g) + Real.cos a * Real.cos g, Real.sin a * Real.sin b;
      -(Real.sin b * Real.cos g), Real.sin b * Real.sin g, Real.cos b] := by
  unfold buildRotatorEuler rotZ3 rotY3
  rw [Matrix.mul_fin_three, Matrix.mul_fin_three]
  congr 1
  simp only [mul_zero, add_zero, zero_add, mul_one, zero_mul, neg_mul, mul_neg, sub_eq_add_neg, neg_zero, one_mul, neg_neg]

/-- **C108** (angles): the three angles that are computed for a rotation matrix are angles of that rotation, for every proper rotation. -/
theorem C108_euler (R : Matrix (Fin 3) (Fin 3) ℝ) (hR : Rᵀ * R = 1) (hd : R.det = 1) :
    buildRotatorEuler (eulerZYZ R).1 (eulerZYZ R).2.1 (eulerZYZ R).2.2 = R ∧
    0 ≤ (eulerZYZ R).1 ∧ (eulerZYZ R).1 ≤ Real.pi ∧ |(eulerZYZ R).2.1| ≤ Real.pi ∧ |(eulerZYZ R).2.2| ≤ Real.pi := by
  have hR' : R * Rᵀ = 1 := mul_eq_one_comm.1 hR
  have hadj : R.adjugate = Rᵀ := by
    have h1 := Matrix.mul_adjugate R
    rw [hd, one_smul] at h1
    calc R.adjugate = (Rᵀ * R) * R.adjugate := by rw [hR, Matrix.one_mul]
      _ = Rᵀ := by rw [Matrix.mul_assoc, h1, Matrix.mul_one]
  rw [Matrix.adjugate_fin_three] at hadj
  have c00 : R 1 1 * R 2 2 - R 1 2 * R 2 1 = R 0 0 := by have := congrFun (congrFun hadj 0) 0; simpa using this
  have c10 : -(R 0 1 * R 2 2) + R 0 2 * R 2 1 = R 1 0 := by have := congrFun (congrFun hadj 0) 1; simpa using this
  have c20 : R 0 1 * R 1 2 - R 0 2 * R 1 1 = R 2 0 := by have := congrFun (congrFun hadj 0) 2; simpa using this
  have c01 : -(R 1 0 * R 2 2) + R 1 2 * R 2 0 = R 0 1 := by have := congrFun (congrFun hadj 1) 0; simpa using this
  have c11 : R 0 0 * R 2 2 - R 0 2 * R 2 0 = R 1 1 := by have := congrFun (congrFun hadj 1) 1; simpa using this
  have c21 : -(R 0 0 * R 1 2) + R 0 2 * R 1 0 = R 2 1 := by have := congrFun (congrFun hadj 1) 2; simpa using this
  have n2 : R 0 2 * R 0 2 + R 1 2 * R 1 2 + R 2 2 * R 2 2 = 1 := by
    have := congrFun (congrFun hR 2) 2
    simpa [Matrix.mul_apply, Fin.sum_univ_three] using this
  have r00 : R 0 0 * R 0 0 + R 0 1 * R 0 1 + R 0 2 * R 0 2 = 1 := by
    have := congrFun (congrFun hR' 0) 0
    simpa [Matrix.mul_apply, Fin.sum_univ_three] using this
  have r11 : R 1 0 * R 1 0 + R 1 1 * R 1 1 + R 1 2 * R 1 2 = 1 := by
    have := congrFun (congrFun hR' 1) 1
    simpa [Matrix.mul_apply, Fin.sum_univ_three] using this
  have r01 : R 0 0 * R 1 0 + R 0 1 * R 1 1 + R 0 2 * R 1 2 = 0 := by
    have := congrFun (congrFun hR' 0) 1
    simpa [Matrix.mul_apply, Fin.sum_univ_three] using this
  -- the first two angles
  set s2 := Real.sqrt (R 1 2 * R 1 2 + R 0 2 * R 0 2) with hs2
  have hs22 : s2 * s2 = R 1 2 * R 1 2 + R 0 2 * R 0 2 := Real.mul_self_sqrt (by nlinarith [sq_nonneg (R 1 2), sq_nonneg (R 0 2)])
  have t1 := atan2_cos (R 1 2) (R 0 2)
  have t2 := atan2_sin (R 1 2) (R 0 2)
  rw [show R 0 2 * R 0 2 + R 1 2 * R 1 2 = R 1 2 * R 1 2 + R 0 2 * R 0 2 by ring, ← hs2] at t1 t2
  obtain ⟨t3, t4⟩ := atan2_unit s2 (R 2 2) (by rw [hs22]; linarith)
  have key : ∃ a b, (eulerZYZ R).1 = a ∧ (eulerZYZ R).2.1 = b ∧ Real.sin b * Real.cos a = R 0 2 ∧ Real.sin b * Real.sin a = R 1 2 ∧ Real.cos b = R 2 2 ∧
      0 ≤ a ∧ a ≤ Real.pi ∧ |b| ≤ Real.pi ∧
      (eulerZYZ R).2.2 = atan2 (Real.cos a * R 1 0 - Real.sin a * R 0 0) (Real.cos a * R 1 1 - Real.sin a * R 0 1) := by
    have g1 := atan2_range (R 1 2) (R 0 2)
    have g2 := atan2_range s2 (R 2 2)
    by_cases h : atan2 (R 1 2) (R 0 2) < 0
    · refine ⟨atan2 (R 1 2) (R 0 2) + Real.pi, -atan2 s2 (R 2 2), ?_, ?_, ?_, ?_, ?_, ?_, ?_, ?_, ?_⟩
      · unfold eulerZYZ; simp only; rw [if_pos h]
      · unfold eulerZYZ; simp only; rw [if_pos h]
      · rw [Real.cos_add_pi, Real.sin_neg, t4]; linarith
      · rw [Real.sin_add_pi, Real.sin_neg, t4]; linarith
      · rw [Real.cos_neg, t3]
      · linarith
      · linarith
      · rw [abs_neg, abs_le]; exact ⟨by linarith, g2.2⟩
      · unfold eulerZYZ; simp only; rw [if_pos h]
    · refine ⟨atan2 (R 1 2) (R 0 2), atan2 s2 (R 2 2), ?_, ?_, ?_, ?_, t3, ?_, g1.2, ?_, ?_⟩
      · unfold eulerZYZ; simp only; rw [if_neg h]
      · unfold eulerZYZ; simp only; rw [if_neg h]
      · rw [t4]; exact t1
      · rw [t4]; exact t2
      · exact not_lt.1 h
      · rw [abs_le]; exact ⟨by linarith, g2.2⟩
      · unfold eulerZYZ; simp only; rw [if_neg h]
  obtain ⟨a, b, ha, hb, e1, e2, e3, ra, ra', rb, hc⟩ := key
  rw [ha, hb, hc]
  have sa := Real.sin_sq_add_cos_sq a
  set c := Real.cos a with hcdef
  set s := Real.sin a with hsdef
  set q := Real.sin b with hq
  obtain ⟨g1, g2⟩ := atan2_unit (c * R 1 0 - s * R 0 0) (c * R 1 1 - s * R 0 1) (by
    have hz : c * R 1 2 - s * R 0 2 = 0 := by rw [← e1, ← e2]; ring
    have : (c * R 1 0 - s * R 0 0) ^ 2 + (c * R 1 1 - s * R 0 1) ^ 2 + (c * R 1 2 - s * R 0 2) ^ 2 = 1 := by
      linear_combination c ^ 2 * r11 + s ^ 2 * r00 - 2 * c * s * r01 + sa
    rw [hz] at this
    linarith)
  refine ⟨?_, ra, ra', rb, ?_⟩
  · rw [euler_entries, ← hcdef, ← hsdef, ← hq, g1, g2, e3]
    have d00 : c * R 2 2 * (c * R 1 1 - s * R 0 1) - s * (c * R 1 0 - s * R 0 0) = R 0 0 := by
      linear_combination c ^ 2 * c00 + c * s * c10 + R 0 0 * sa + c * s * R 2 1 * e1 - c ^ 2 * R 2 1 * e2
    have d01 : -(c * R 2 2 * (c * R 1 0 - s * R 0 0)) - s * (c * R 1 1 - s * R 0 1) = R 0 1 := by
      linear_combination c ^ 2 * c01 + c * s * c11 + R 0 1 * sa - c * s * R 2 0 * e1 + c ^ 2 * R 2 0 * e2
    have d10 : s * R 2 2 * (c * R 1 1 - s * R 0 1) + c * (c * R 1 0 - s * R 0 0) = R 1 0 := by
      linear_combination c * s * c00 + s ^ 2 * c10 + R 1 0 * sa + s ^ 2 * R 2 1 * e1 - c * s * R 2 1 * e2
    have d11 : -(s * R 2 2 * (c * R 1 0 - s * R 0 0)) + c * (c * R 1 1 - s * R 0 1) = R 1 1 := by
      linear_combination c * s * c01 + s ^ 2 * c11 + R 1 1 * sa - s ^ 2 * R 2 0 * e1 + c * s * R 2 0 * e2
    have d20 : -(q * (c * R 1 1 - s * R 0 1)) = R 2 0 := by
      linear_combination c20 - R 1 1 * e1 + R 0 1 * e2
    have d21 : q * (c * R 1 0 - s * R 0 0) = R 2 1 := by
      linear_combination c21 + R 1 0 * e1 - R 0 0 * e2
    rw [d00, d01, d10, d11, d20, d21, show c * q = R 0 2 by linarith, show s * q = R 1 2 by linarith]
    exact (Matrix.eta_fin_three R).symm
  · rw [abs_le]; exact ⟨(atan2_range _ _).1.le, (atan2_range _ _).2⟩

/-- The rotation matrix whose columns are y × z, y and z. -/
def frame (Z Y : Vec3) : Matrix (Fin 3) (Fin 3) ℝ := (⟨Y.cross Z, Y, Z⟩ : Cols3).mat

theorem frame_rotation (Z Y : Vec3) (h1 : Z.dot Z = 1) (h2 : Y.dot Y = 1) (h3 : Z.dot Y = 0) : (frame Z Y)ᵀ * frame Z Y = 1 ∧ (frame Z Y).det = 1 := by
  unfold Vec3.dot at h1 h2 h3
  have lag : (Y.y * Z.z - Y.z * Z.y) * (Y.y * Z.z - Y.z * Z.y) + (Y.z * Z.x - Y.x * Z.z) * (Y.z * Z.x - Y.x * Z.z) +
      (Y.x * Z.y - Y.y * Z.x) * (Y.x * Z.y - Y.y * Z.x) = 1 := by
    linear_combination (Y.x * Y.x + Y.y * Y.y + Y.z * Y.z) * h1 + h2 - (Z.x * Y.x + Z.y * Y.y + Z.z * Y.z) * h3
  constructor
  · unfold frame Cols3.mat Vec3.cross
    ext i j
    fin_cases i <;> fin_cases j <;> simp [Matrix.mul_apply, Fin.sum_univ_three, Matrix.transpose_apply] <;> linarith
  · unfold frame Cols3.mat Vec3.cross
    rw [Matrix.det_fin_three]
    simp
    linarith

/-- **C108** (axes): for every pair of orthogonal, non-zero axes the angles exist, and the rotation with these angles has the (normalised) axes as
its third and second column. -/
theorem C108_axes (z y : Vec3) (hz : z.dot z > 0) (hy : y.dot y > 0) (h : z.dot y = 0) :
    ∃ α β γ : ℝ, getEulerAngles z y = .ok (α, β, γ) ∧ colVec (buildRotatorEuler α β γ) 2 = z.normalized ∧
      colVec (buildRotatorEuler α β γ) 1 = y.normalized ∧ colVec (buildRotatorEuler α β γ) 0 = y.normalized.cross z.normalized := by
  obtain ⟨f1, f2⟩ := frame_rotation _ _ (normalized_unit z hz) (normalized_unit y hy) (normalized_ortho z y hz hy h)
  refine ⟨(eulerZYZ (frame z.normalized y.normalized)).1, (eulerZYZ (frame z.normalized y.normalized)).2.1, (eulerZYZ (frame z.normalized y.normalized)).2.2, ?_, ?_⟩
  · unfold getEulerAngles buildRotatorAxes
    dsimp only
    rw [if_neg (by rw [normalized_ortho z y hz hy h]; norm_num), Out.ok_bind]
    rfl
  · rw [(C108_euler _ f1 f2).1]
    exact ⟨rfl, rfl, rfl⟩

/-- **C108**: axes that are not orthogonal (cosine above 1e-16) are refused. -/
theorem C108_rejects (z y : Vec3) (h : |z.normalized.dot y.normalized| > 1e-16) : getEulerAngles z y = .throw := by
  unfold getEulerAngles buildRotatorAxes
  dsimp only
  rw [if_pos h]; rfl

/-- Normalising a vector twice changes nothing. -/
theorem normalized_idem (a : Vec3) : a.normalized.normalized = a.normalized := by
  by_cases h : a.dot a > 0
  · have nrm : ∀ b : Vec3, b.dot b = 1 → b.normalized = b := by
      intro b hb
      unfold Vec3.normalized
      rw [if_pos (by rw [hb]; norm_num), hb, Real.sqrt_one, div_one, div_one, div_one]
    exact nrm _ (normalized_unit a h)
  · have e : a.normalized = a := by unfold Vec3.normalized; rw [if_neg h]
    rw [e, e]

theorem rotateVectorAxes_normalized (v z y : Vec3) : rotateVectorAxes v z.normalized y.normalized = rotateVectorAxes v z y := by
  unfold rotateVectorAxes buildRotatorAxes
  rw [normalized_idem, normalized_idem]

/-- **C108** (fields): a field set with two axes is the field set with the angles of these axes. -/
theorem C108_fields (v z y : Vec3) (hz : z.dot z > 0) (hy : y.dot y > 0) (h : z.dot y = 0) :
    ∃ α β γ : ℝ, getEulerAngles z y = .ok (α, β, γ) ∧ rotateVectorAxes v z y = .ok (rotateVectorEuler v α β γ) := by
  obtain ⟨α, β, γ, h1, h2, h3, -⟩ := C108_axes z y hz hy h
  refine ⟨α, β, γ, h1, ?_⟩
  rw [← rotateVectorAxes_normalized, ← h2, ← h3]
  exact C79_axes_euler v α β γ

/-- The third component of the z axis is zero or above the tolerance of the code (otherwise the code replaces the angle by exactly π/2). -/
def PlainAxis (z : Vec3) : Prop := z.z = 0 ∨ |z.normalized.z| ≥ 1e-16

theorem plain_axis (z y : Vec3) (hz : z.dot z > 0) (hy : y.dot y > 0) (h : z.dot y = 0) (hp : PlainAxis z) (α β γ : ℝ)
    (he : getEulerAngles z y = .ok (α, β, γ)) : PlainAngle (-β) := by
  obtain ⟨a, b, c, h1, h2, -⟩ := C108_axes z y hz hy h
  rw [he] at h1
  simp only [Out.ok.injEq, Prod.mk.injEq] at h1
  obtain ⟨rfl, rfl, rfl⟩ := h1
  have hc : Real.cos β = z.normalized.z := by
    rw [← h2, euler_entries]; rfl
  intro hw
  have e : Real.cos β = Real.sin (β + Real.pi / 2) := (Real.sin_add_pi_div_two β).symm
  have hw' : |β + Real.pi / 2| < 1e-16 := by rw [← abs_neg]; convert hw using 2; ring
  rcases hp with hp | hp
  · have h0 : z.normalized.z = 0 := by
      unfold Vec3.normalized; rw [if_pos hz]; simp [hp]
    rw [h0] at hc
    have hs : Real.sin (β + Real.pi / 2) = 0 := by rw [← e, hc]
    have hpi := Real.pi_gt_three
    rw [abs_lt] at hw'
    have := (Real.sin_eq_zero_iff_of_lt_of_lt (x := β + Real.pi / 2) (by norm_num at hw'; linarith [hw'.1]) (by norm_num at hw'; linarith [hw'.2])).1 hs
    linarith
  · exfalso
    rw [← hc, e] at hp
    have : |Real.sin (β + Real.pi / 2)| ≤ |β + Real.pi / 2| := Real.abs_sin_le_abs
    linarith

/-! ## Systems -/

variable {N : ℕ}

/-- The components of a vector along y × z, y and z (all normalised). -/
noncomputable def along (v z y : Vec3) : Vec3 := ⟨(y.normalized.cross z.normalized).dot v, y.normalized.dot v, z.normalized.dot v⟩

theorem along_euler (v z y : Vec3) (hz : z.dot z > 0) (hy : y.dot y > 0) (h : z.dot y = 0) (α β γ : ℝ) (he : getEulerAngles z y = .ok (α, β, γ)) :
    rotateVectorEuler v α β γ = along v z y := by
  obtain ⟨a, b, c, h1, h2⟩ := C108_fields v z y hz hy h
  rw [he] at h1
  simp only [Out.ok.injEq, Prod.mk.injEq] at h1
  obtain ⟨rfl, rfl, rfl⟩ := h1
  obtain ⟨w, w0, wx, wy, wz, -⟩ := C79_axes v z y hz hy h
  rw [h2, Out.ok.injEq] at w0
  rw [w0]
  unfold along
  rw [← wx, ← wy, ← wz]

/-- **C108** (single atom): `rotate(to_z_axis, to_y_axis)` turns a system into the system of the same atom in the fields whose components are taken
along the axes: the Hamiltonian that is obtained with `setEfield` and `setBfield` of the components. -/
theorem C108_rotate_one {k : Type} [Fintype k] [DecidableEq k] (C : FieldConsts) (radial : RadKey → ℝ) (me : Method) (st : Fin N → Option QN)
    (hst : RotStates st) (hall : AllZeeman st) (hg0 : GoodStates st) (e : Fin N → ℝ) (he : LevelEnergies st e) (p : FieldParams) (z y : Vec3)
    (hz : z.dot z > 0) (hy : y.dot y > 0) (h : z.dot y = 0) (hpl : PlainAxis z) (hion : p.charge = 0 ∨ p.dist = none) (hp : NoTiny p)
    (hp' : NoTiny { p with E := along p.E z y, B := along p.B z y }) (s : CSys FieldParams FKey (Fin N) k)
    (hs : s.V * s.H * s.Vᴴ = oneOperator C radial me st e p) :
    ∃ M, rotator1Axes false st z y = .ok M ∧
      (s.rotate M).V * (s.rotate M).H * (s.rotate M).Vᴴ = oneOperator C radial me st e { p with E := along p.E z y, B := along p.B z y } := by
  obtain ⟨α, β, γ, ha, -⟩ := C108_axes z y hz hy h
  have hr : p.rotated α β γ = { p with E := along p.E z y, B := along p.B z y } := by
    unfold FieldParams.rotated
    rw [along_euler p.E z y hz hy h α β γ ha, along_euler p.B z y hz hy h α β γ ha]
  obtain ⟨M, h1, h2⟩ := C80_rotate C radial me st hst hall hg0 e he p α β γ (plain_axis z y hz hy h hpl α β γ ha)
    (hion.imp_right Or.inl) hp (by rw [hr]; exact hp') s hs
  refine ⟨M, ?_, by rw [← hr]; exact h2⟩
  unfold rotator1Axes
  rw [ha]
  exact h1

/-- **C108** (two atoms): `rotate(to_z_axis, to_y_axis)` turns a pair of atoms into the pair whose distance vector has the components along the axes. -/
theorem C108_rotate_two {k : Type} [Fintype k] [DecidableEq k] (C : FieldConsts) (radial : RadKey → ℝ) (me : Method) (st : Fin N → Option (QN × QN))
    (hst : RotPairs st) (hall : AllZeemanPairs st) (hg0 : GoodPairs st) (e : Fin N → ℝ) (he : LevelPairEnergies st e) (p p' : OKPair) (z y : Vec3)
    (hz : z.dot z > 0) (hy : y.dot y > 0) (h : z.dot y = 0) (hpl : PlainAxis z) (hd : DipoleSettings p.1) (hd' : DipoleSettings p'.1)
    (hv : p'.1.vec = along p.1.vec z y) (s : CSys OKPair PKey (Fin N) k) (hs : s.V * s.H * s.Vᴴ = twoOperator C radial me st e p) :
    ∃ M, rotator2Axes false st z y = .ok M ∧ (s.rotate M).V * (s.rotate M).H * (s.rotate M).Vᴴ = twoOperator C radial me st e p' := by
  obtain ⟨α, β, γ, ha, -⟩ := C108_axes z y hz hy h
  obtain ⟨M, h1, h2⟩ := C81_rotate C radial me st hst hall hg0 e he p p' α β γ (plain_axis z y hz hy h hpl α β γ ha) hd hd'
    (by rw [hv, along_euler p.1.vec z y hz hy h α β γ ha]) s hs
  refine ⟨M, ?_, h2⟩
  unfold rotator2Axes
  rw [ha]
  exact h1

/-- A vector along the z axis has only a third component, its length. -/
theorem along_self (z y : Vec3) (hz : z.dot z > 0) (hy : y.dot y > 0) (h : z.dot y = 0) : along z z y = ⟨0, 0, Real.sqrt (z.dot z)⟩ := by
  have hs : Real.sqrt (z.dot z) * Real.sqrt (z.dot z) = z.dot z := Real.mul_self_sqrt hz.le
  have hne : Real.sqrt (z.dot z) ≠ 0 := (Real.sqrt_pos.2 hz).ne'
  have e2 : y.normalized.dot z = 0 := by
    unfold Vec3.normalized
    rw [if_pos hy]
    unfold Vec3.dot at h ⊢
    dsimp only
    generalize Real.sqrt _ = t
    rw [div_mul_eq_mul_div, div_mul_eq_mul_div, div_mul_eq_mul_div, ← add_div, ← add_div,
      show y.x * z.x + y.y * z.y + y.z * z.z = 0 by linarith, zero_div]
  have e3 : z.normalized.dot z = Real.sqrt (z.dot z) := by
    unfold Vec3.normalized
    rw [if_pos hz]
    rw [eq_comm, ← mul_left_inj' hne, hs]
    generalize ht : Real.sqrt (z.dot z) = t at hne
    unfold Vec3.dot
    dsimp only
    field_simp
  have e1 : (y.normalized.cross z.normalized).dot z = 0 := by
    unfold Vec3.normalized
    rw [if_pos hz, if_pos hy]
    unfold Vec3.dot Vec3.cross
    dsimp only
    ring
  unfold along
  rw [e1, e2, e3]

/-- **C108** (alignment): rotating a pair of atoms with its own distance vector as new z axis gives the pair of atoms on the z axis, at the same distance. -/
theorem C108_align {k : Type} [Fintype k] [DecidableEq k] (C : FieldConsts) (radial : RadKey → ℝ) (me : Method) (st : Fin N → Option (QN × QN))
    (hst : RotPairs st) (hall : AllZeemanPairs st) (hg0 : GoodPairs st) (e : Fin N → ℝ) (he : LevelPairEnergies st e) (p p' : OKPair) (y : Vec3)
    (hz : p.1.vec.dot p.1.vec > 0) (hy : y.dot y > 0) (h : p.1.vec.dot y = 0) (hpl : PlainAxis p.1.vec) (hd : DipoleSettings p.1) (hd' : DipoleSettings p'.1)
    (hv : p'.1.vec = ⟨0, 0, Real.sqrt (p.1.vec.dot p.1.vec)⟩) (s : CSys OKPair PKey (Fin N) k) (hs : s.V * s.H * s.Vᴴ = twoOperator C radial me st e p) :
    ∃ M, rotator2Axes false st p.1.vec y = .ok M ∧ (s.rotate M).V * (s.rotate M).H * (s.rotate M).Vᴴ = twoOperator C radial me st e p' :=
  C108_rotate_two C radial me st hst hall hg0 e he p p' p.1.vec y hz hy h hpl hd hd' (by rw [hv, along_self _ y hz hy h]) s hs

/-- **C108** (overlaps): the overlap with states rotated to the axes is the overlap of the states with the basis rotated back: with the rotator `M` of
the axes, that of the basis vectors `Mᴴ V`, for every basis. -/
theorem C108_overlap_rotated_back {k : Type} (st : Fin N → Option QN) (hst : RotStates st) (V : Matrix (Fin N) k ℂ) (idx : List (Fin N)) (z y : Vec3)
    (hz : z.dot z > 0) (hy : y.dot y > 0) (h : z.dot y = 0) :
    ∃ M, rotator1Axes false st z y = .ok M ∧
      getOverlapAxes (addRotated1 false st) st V idx z y = .ok fun v => (idx.map fun i => ‖(Mᴴ * V) i v‖ ^ 2).sum := by
  obtain ⟨α, β, γ, ha, -⟩ := C108_axes z y hz hy h
  obtain ⟨M, hM, -⟩ := C78_elements false st hst α β γ (by simp)
  refine ⟨M, by unfold rotator1Axes; rw [ha]; exact hM, ?_⟩
  have cols : overlapCols (addRotated1 false st) st idx α β γ = .ok (idx.map fun c r => M r c) := by
    unfold overlapCols
    by_cases h0 : α = 0 ∧ β = 0 ∧ γ = 0
    · rw [if_pos h0]
      obtain ⟨rfl, rfl, rfl⟩ := h0
      rw [C78_identity st hst, Out.ok.injEq] at hM
      rw [← hM]
      rfl
    · rw [if_neg h0]
      exact rotateCols_rotator st hst α β γ M hM idx
  unfold getOverlapAxes
  rw [ha, Out.ok_bind]
  unfold getOverlapRot
  rw [cols, Out.ok_bind]
  congr 1
  funext v
  rw [List.map_map]
  congr 1
  refine List.map_congr_left fun i _ => ?_
  simp only [Function.comp_def]
  rw [Matrix.mul_apply]
  congr 1
  rw [← Complex.norm_conj, map_sum]
  congr 1
  refine Finset.sum_congr rfl fun r _ => ?_
  rw [map_mul, Complex.conj_conj, Matrix.conjTranspose_apply, mul_comm]
  rfl

/-- **C108** is not fulfilled by a zero axis: it is accepted, and nothing is rotated. -/
theorem C108_zero_axis_fails (st : Fin N → Option QN) (hst : RotStates st) :
    getEulerAngles ⟨0, 0, 0⟩ ⟨0, 1, 0⟩ = .ok (0, 0, 0) ∧ rotator1Axes false st ⟨0, 0, 0⟩ ⟨0, 1, 0⟩ = .ok 1 := by
  have h0 : (⟨0, 0, 0⟩ : Vec3).normalized = ⟨0, 0, 0⟩ := by unfold Vec3.normalized Vec3.dot; rw [if_neg (by norm_num)]
  have h1 : (⟨0, 1, 0⟩ : Vec3).normalized = ⟨0, 1, 0⟩ := by unfold Vec3.normalized Vec3.dot; rw [if_pos (by norm_num)]; simp
  have a0 : atan2 0 0 = 0 := Complex.arg_zero
  have a1 : atan2 0 1 = 0 := Complex.arg_one
  have he : getEulerAngles ⟨0, 0, 0⟩ ⟨0, 1, 0⟩ = .ok (0, 0, 0) := by
    unfold getEulerAngles buildRotatorAxes
    dsimp only
    rw [h0, h1, if_neg (by unfold Vec3.dot; norm_num), Out.ok_bind]
    unfold eulerZYZ Cols3.mat Vec3.cross
    simp [a0, a1]
  refine ⟨he, ?_⟩
  unfold rotator1Axes
  rw [he]
  exact C78_identity st hst

theorem bad_pi : badAngle Real.pi := by
  unfold badAngle
  have hp := Real.pi_gt_three
  have e : Real.pi / (2 * Real.pi) = 1 / 2 := by field_simp
  have r : round (1 / 2 : ℝ) = 1 := by rw [round_eq]; norm_num
  rw [e, r, show Real.pi - 2 * Real.pi * ((1 : ℤ) : ℝ) = -Real.pi by push_cast; ring, abs_neg, abs_of_pos (by linarith)]
  norm_num
  linarith

/-- **C108** is not fulfilled by the real type for an axis in the half plane x < 0: the axes describe the rotation by θ about y, which the real type
accepts as angles (0, θ, 0), but the angles that are computed are (π, -θ, π), which it refuses. -/
theorem C108_real_half_plane_fails (st : Fin N → Option QN) (hst : RotStates st) (hN : 0 < N) (θ : ℝ) (h1 : -Real.pi < θ) (h2 : θ < 0) :
    rotator1Axes true st ⟨Real.sin θ, 0, Real.cos θ⟩ ⟨0, 1, 0⟩ = .throw ∧ (∃ M, rotator1 true st 0 θ 0 = .ok M) ∧
    buildRotatorEuler 0 θ 0 = frame ⟨Real.sin θ, 0, Real.cos θ⟩ ⟨0, 1, 0⟩ := by
  have nrm : ∀ b : Vec3, b.dot b = 1 → b.normalized = b := by
    intro b hb
    unfold Vec3.normalized
    rw [if_pos (by rw [hb]; norm_num), hb, Real.sqrt_one, div_one, div_one, div_one]
  have hsc := Real.sin_sq_add_cos_sq θ
  have n1 : (⟨Real.sin θ, 0, Real.cos θ⟩ : Vec3).normalized = ⟨Real.sin θ, 0, Real.cos θ⟩ := nrm _ (by unfold Vec3.dot; dsimp only; linarith)
  have n2 : (⟨0, 1, 0⟩ : Vec3).normalized = ⟨0, 1, 0⟩ := nrm _ (by unfold Vec3.dot; norm_num)
  have hs : Real.sin θ < 0 := Real.sin_neg_of_neg_of_neg_pi_lt h2 h1
  have hneg : atan2 0 (Real.sin θ) = Real.pi := by
    show Complex.arg ⟨Real.sin θ, 0⟩ = Real.pi
    rw [Complex.arg_eq_pi_iff]
    exact ⟨hs, rfl⟩
  refine ⟨?_, ?_, ?_⟩
  · unfold rotator1Axes getEulerAngles buildRotatorAxes
    dsimp only
    rw [n1, n2, if_neg (by unfold Vec3.dot; norm_num), Out.ok_bind, Out.ok_bind]
    have ha : (eulerZYZ (Cols3.mat ⟨(⟨0, 1, 0⟩ : Vec3).cross ⟨Real.sin θ, 0, Real.cos θ⟩, ⟨0, 1, 0⟩, ⟨Real.sin θ, 0, Real.cos θ⟩⟩)).1 = Real.pi := by
      have m1 : (Cols3.mat ⟨(⟨0, 1, 0⟩ : Vec3).cross ⟨Real.sin θ, 0, Real.cos θ⟩, ⟨0, 1, 0⟩, ⟨Real.sin θ, 0, Real.cos θ⟩⟩) 1 2 = 0 := rfl
      have m2 : (Cols3.mat ⟨(⟨0, 1, 0⟩ : Vec3).cross ⟨Real.sin θ, 0, Real.cos θ⟩, ⟨0, 1, 0⟩, ⟨Real.sin θ, 0, Real.cos θ⟩⟩) 0 2 = Real.sin θ := rfl
      unfold eulerZYZ
      dsimp only
      rw [m1, m2, hneg, if_neg (by have := Real.pi_gt_three; linarith)]
    exact C78_real_rejects st _ _ _ hN (Or.inl (by rw [ha]; exact bad_pi))
  · obtain ⟨M, hM, -⟩ := C78_real_exact st hst 0 θ 0 0 0 (by simp) (by simp)
    exact ⟨M, hM⟩
  · rw [euler_entries]
    unfold frame Cols3.mat Vec3.cross
    simp

/-! ## Examples -/

theorem exZ_plain : PlainAxis ⟨3, 0, 4⟩ := by
  right
  unfold Vec3.normalized Vec3.dot
  rw [if_pos (by norm_num)]
  dsimp only
  rw [show (3 * 3 + 0 * 0 + 4 * 4 : ℝ) = 5 ^ 2 by norm_num, Real.sqrt_sq (by norm_num), abs_of_pos (by norm_num)]
  norm_num

example := C108_axes ⟨3, 0, 4⟩ ⟨0, 2, 0⟩ (by norm_num [Vec3.dot]) (by norm_num [Vec3.dot]) (by norm_num [Vec3.dot])
example := C108_euler (frame ⟨0, 0, 1⟩ ⟨0, 1, 0⟩) (frame_rotation _ _ (by norm_num [Vec3.dot]) (by norm_num [Vec3.dot]) (by norm_num [Vec3.dot])).1
  (frame_rotation _ _ (by norm_num [Vec3.dot]) (by norm_num [Vec3.dot]) (by norm_num [Vec3.dot])).2
example : getEulerAngles ⟨0, 0, 1⟩ ⟨0, 0, 1⟩ = .throw := C108_rejects _ _ (by
  have : (⟨0, 0, 1⟩ : Vec3).normalized = ⟨0, 0, 1⟩ := by unfold Vec3.normalized Vec3.dot; rw [if_pos (by norm_num)]; simp
  rw [this]; norm_num [Vec3.dot])
example := C108_overlap_rotated_back exS exS_rot (1 : Matrix (Fin 2) (Fin 2) ℂ) [0] ⟨3, 0, 4⟩ ⟨0, 2, 0⟩ (by norm_num [Vec3.dot]) (by norm_num [Vec3.dot])
  (by norm_num [Vec3.dot])
example := C108_zero_axis_fails exS exS_rot
example := C108_real_half_plane_fails exS exS_rot (by norm_num) (-1) (by have := Real.pi_gt_three; linarith) (by norm_num)

example (C : FieldConsts) (radial : RadKey → ℝ) (me : Method) :
    let p : FieldParams := ⟨⟨0, 0, 1⟩, ⟨0, 0, 0⟩, true, 0, 0, none⟩
    let s : CSys FieldParams FKey (Fin 2) (Fin 2) := ⟨p, 1, oneOperator C radial me exS (fun _ => 7) p, none, none, fun _ => none, false, false, false, false⟩
    ∃ M, rotator1Axes false exS ⟨-2, 0, 0⟩ ⟨0, 3, 0⟩ = .ok M ∧
      (s.rotate M).V * (s.rotate M).H * (s.rotate M).Vᴴ = oneOperator C radial me exS (fun _ => 7) ⟨⟨1, 0, 0⟩, ⟨0, 0, 0⟩, true, 0, 0, none⟩ := by
  intro p s
  have n1 : (⟨-2, 0, 0⟩ : Vec3).normalized = ⟨-1, 0, 0⟩ := by
    unfold Vec3.normalized Vec3.dot
    rw [if_pos (by norm_num)]
    dsimp only
    rw [show (-2 * -2 + 0 * 0 + 0 * 0 : ℝ) = 2 ^ 2 by norm_num, Real.sqrt_sq (by norm_num)]
    norm_num
  have n2 : (⟨0, 3, 0⟩ : Vec3).normalized = ⟨0, 1, 0⟩ := by
    unfold Vec3.normalized Vec3.dot
    rw [if_pos (by norm_num)]
    dsimp only
    rw [show (0 * 0 + 3 * 3 + 0 * 0 : ℝ) = 3 ^ 2 by norm_num, Real.sqrt_sq (by norm_num)]
    norm_num
  have hr : ({ p with E := along p.E ⟨-2, 0, 0⟩ ⟨0, 3, 0⟩, B := along p.B ⟨-2, 0, 0⟩ ⟨0, 3, 0⟩ } : FieldParams) = ⟨⟨1, 0, 0⟩, ⟨0, 0, 0⟩, true, 0, 0, none⟩ := by
    unfold along
    rw [n1, n2]
    simp [p, Vec3.cross, Vec3.dot]
  have := C108_rotate_one C radial me exS exS_rot exS_all exS_good (fun _ => 7) (fun _ _ _ _ _ _ _ => rfl) p ⟨-2, 0, 0⟩ ⟨0, 3, 0⟩ (by norm_num [Vec3.dot])
    (by norm_num [Vec3.dot]) (by norm_num [Vec3.dot]) (Or.inl rfl) (Or.inl rfl) (exNoTiny 0 1 (Or.inl rfl) (Or.inr (by norm_num)))
    (by rw [hr]; exact exNoTiny 1 0 (Or.inr (by norm_num)) (Or.inl rfl)) s (by simp [s])
  rw [hr] at this
  exact this

example (C : FieldConsts) (radial : RadKey → ℝ) (me : Method) :
    let H := twoOperator C radial me exSP (fun i => if i.val < 4 then 7 else 8) ⟨tiltedEx, exPair_ok _ tiltedEx_notGreen⟩
    let s : CSys OKPair PKey (Fin 8) (Fin 8) := ⟨⟨tiltedEx, exPair_ok _ tiltedEx_notGreen⟩, 1, H, none, none, fun _ => none, false, false, false, false⟩
    ∃ M, rotator2Axes false exSP ⟨3, 0, 4⟩ ⟨0, 1, 0⟩ = .ok M ∧ (s.rotate M).V * (s.rotate M).H * (s.rotate M).Vᴴ
      = twoOperator C radial me exSP (fun i => if i.val < 4 then 7 else 8) ⟨exAxis, exPair_ok _ exAxis_notGreen⟩ := by
  intro H s
  have hv : tiltedEx.vec = ⟨3, 0, 4⟩ := by simp [PairParams.vec, tiltedEx, PairParams.setVector]
  have := C108_align C radial me exSP exSP_rot exSP_all exSP_good _ exSP_energies ⟨tiltedEx, exPair_ok _ tiltedEx_notGreen⟩
    ⟨exAxis, exPair_ok _ exAxis_notGreen⟩ ⟨0, 1, 0⟩ (by rw [hv]; norm_num [Vec3.dot]) (by norm_num [Vec3.dot]) (by rw [hv]; norm_num [Vec3.dot])
    (by rw [hv]; exact exZ_plain) tiltedEx_settings exAxis_settings (by
      dsimp only
      rw [hv]
      have : Real.sqrt ((⟨3, 0, 4⟩ : Vec3).dot ⟨3, 0, 4⟩) = 5 := by
        unfold Vec3.dot
        dsimp only
        rw [show (3 * 3 + 0 * 0 + 4 * 4 : ℝ) = 5 ^ 2 by norm_num, Real.sqrt_sq (by norm_num)]
      rw [this]
      rfl) s (by simp [s, H])
  dsimp only at this
  rw [hv] at this
  exact this

end PI
