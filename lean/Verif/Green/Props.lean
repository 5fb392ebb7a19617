import Verif.Green.Model
import Mathlib.Analysis.Calculus.Deriv.Add
import Mathlib.Analysis.Calculus.Deriv.Mul
import Mathlib.Analysis.Calculus.Deriv.Pow
import Mathlib.Analysis.Calculus.Deriv.Inv
import Mathlib.LinearAlgebra.Matrix.Notation
import Mathlib.Tactic.FieldSimp

/-! # Properties C45–C47: Green tensors -/

namespace PI

/-! ## Derivatives -/

theorem norm3_sq (r : V3) : norm3 r ^ 2 = r 0 * r 0 + r 1 * r 1 + r 2 * r 2 := by
  unfold norm3
  exact Real.sq_sqrt (by nlinarith [mul_self_nonneg (r 0), mul_self_nonneg (r 1), mul_self_nonneg (r 2)])

theorem vec_eta (r : V3) : ![r 0, r 1, r 2] = r := by
  ext i; fin_cases i <;> rfl

theorem hasDerivAt_coord (r : V3) (i k : Fin 3) :
    HasDerivAt (fun t => Function.update r k t i) (eye i k) (r k) := by
  unfold eye
  split_ifs with h
  · subst h
    simp only [Function.update_self]
    exact hasDerivAt_id (r i)
  · simpa [Function.update_of_ne h] using hasDerivAt_const (r k) (r i)

theorem hasDerivAt_norm3 (r : V3) (hr : norm3 r ≠ 0) (k : Fin 3) :
    HasDerivAt (fun t => norm3 (Function.update r k t)) (r k / norm3 r) (r k) := by
  have hS : HasDerivAt (fun t => (Function.update r k t 0) * (Function.update r k t 0)
      + (Function.update r k t 1) * (Function.update r k t 1)
      + (Function.update r k t 2) * (Function.update r k t 2)) (2 * r k) (r k) := by
    have h0 := hasDerivAt_coord r 0 k
    have h1 := hasDerivAt_coord r 1 k
    have h2 := hasDerivAt_coord r 2 k
    refine (((h0.mul h0).add (h1.mul h1)).add (h2.mul h2)).congr_deriv ?_
    fin_cases k <;> simp [eye] <;> ring
  have hne : (Function.update r k (r k) 0) * (Function.update r k (r k) 0)
      + (Function.update r k (r k) 1) * (Function.update r k (r k) 1)
      + (Function.update r k (r k) 2) * (Function.update r k (r k) 2) ≠ 0 := by
    rw [Function.update_eq_self, ← norm3_sq]; exact pow_ne_zero 2 hr
  have := hS.sqrt hne
  unfold norm3
  refine this.congr_deriv ?_
  rw [Function.update_eq_self]
  have : norm3 r ≠ 0 := hr
  unfold norm3 at this
  field_simp

/-- ∂_k of the dipole–dipole tensor. -/
theorem hasDerivAt_dd (r : V3) (hr : norm3 r ≠ 0) (i j k : Fin 3) :
    HasDerivAt (fun t => ddVacuum (Function.update r k t 0) (Function.update r k t 1) (Function.update r k t 2) i j)
      (3 / norm3 r ^ 5 * (eye i j * r k + r i * eye j k + r j * eye i k)
        - 15 / norm3 r ^ 7 * r i * r j * r k) (r k) := by
  simp only [ddVacuum, vec_eta]
  have hN := hasDerivAt_norm3 r hr k
  have hi := hasDerivAt_coord r i k
  have hj := hasDerivAt_coord r j k
  have e : norm3 (Function.update r k (r k)) = norm3 r := by rw [Function.update_eq_self]
  have h1 := (hasDerivAt_const (r k) (-eye i j)).div (hN.pow 3) (by rw [Pi.pow_apply, e]; exact pow_ne_zero 3 hr)
  have h2 := ((hi.const_mul 3).mul hj).div (hN.pow 5) (by rw [Pi.pow_apply, e]; exact pow_ne_zero 5 hr)
  refine (h1.add h2).congr_deriv ?_
  simp only [Pi.pow_apply, Pi.mul_apply, Function.update_eq_self]
  field_simp
  push_cast
  ring

/-! ## C45 -/

/-- **C45.** For every non-zero separation: the vacuum dipole–dipole tensor is symmetric, traceless,
invariant under inversion, scales with λ⁻³, and the dipole–quadrupole tensor is −∂_k of it, the
quadrupole–dipole tensor +∂_i of it (the quadrupole sits on the other atom). -/
theorem C45_vacuum_tensor (r : V3) (hr : r ≠ 0) :
    (∀ i j, ddVacuum (r 0) (r 1) (r 2) i j = ddVacuum (r 0) (r 1) (r 2) j i) ∧
    (∑ i, ddVacuum (r 0) (r 1) (r 2) i i = 0) ∧
    (∀ i j, ddVacuum (-r 0) (-r 1) (-r 2) i j = ddVacuum (r 0) (r 1) (r 2) i j) ∧
    (∀ c : ℝ, 0 < c → ∀ i j, ddVacuum (c * r 0) (c * r 1) (c * r 2) i j = ddVacuum (r 0) (r 1) (r 2) i j / c ^ 3) ∧
    (∀ i j k, HasDerivAt
      (fun t => ddVacuum (Function.update r k t 0) (Function.update r k t 1) (Function.update r k t 2) i j)
      (-dqVacuum (r 0) (r 1) (r 2) i j k) (r k)) ∧
    (∀ i j k, HasDerivAt
      (fun t => ddVacuum (Function.update r i t 0) (Function.update r i t 1) (Function.update r i t 2) j k)
      (qdVacuum (r 0) (r 1) (r 2) i j k) (r i)) := by
  have hn : norm3 r ≠ 0 := by
    intro h
    apply hr
    have h2 := norm3_sq r
    rw [h] at h2
    have a0 := mul_self_nonneg (r 0); have a1 := mul_self_nonneg (r 1); have a2 := mul_self_nonneg (r 2)
    ext i
    fin_cases i <;> simp only [Pi.zero_apply] <;> apply mul_self_eq_zero.mp <;>
      simp only [Fin.zero_eta, Fin.mk_one, Fin.reduceFinMk] <;> linarith
  refine ⟨?_, ?_, ?_, ?_, ?_, ?_⟩
  · intro i j
    have : eye i j = eye j i := by unfold eye; simp [eq_comm]
    simp only [ddVacuum]; rw [this]; ring
  · simp only [ddVacuum, vec_eta, Fin.sum_univ_three, eye, if_true]
    have h2 := norm3_sq r
    have : 3 * r 0 * r 0 + 3 * r 1 * r 1 + 3 * r 2 * r 2 = 3 * norm3 r ^ 2 := by rw [h2]; ring
    have e : ∀ a b c : ℝ, -1 / norm3 r ^ 3 + a / norm3 r ^ 5 + (-1 / norm3 r ^ 3 + b / norm3 r ^ 5)
        + (-1 / norm3 r ^ 3 + c / norm3 r ^ 5) = -3 / norm3 r ^ 3 + (a + b + c) / norm3 r ^ 5 := by
      intros; ring
    rw [e, this]; field_simp; ring
  · intro i j
    have e : norm3 ![-r 0, -r 1, -r 2] = norm3 ![r 0, r 1, r 2] := by simp [norm3]
    simp only [ddVacuum, e]
    have : ∀ i : Fin 3, (![-r 0, -r 1, -r 2] : V3) i = -(![r 0, r 1, r 2] : V3) i := by
      intro i; fin_cases i <;> rfl
    rw [this i, this j]; ring
  · intro c hc i j
    have hv : ∀ i : Fin 3, (![c * r 0, c * r 1, c * r 2] : V3) i = c * r i := by
      intro i; fin_cases i <;> rfl
    have e : norm3 ![c * r 0, c * r 1, c * r 2] = c * norm3 r := by
      unfold norm3
      simp only [hv]
      rw [show c * r 0 * (c * r 0) + c * r 1 * (c * r 1) + c * r 2 * (c * r 2)
        = c ^ 2 * (r 0 * r 0 + r 1 * r 1 + r 2 * r 2) by ring, Real.sqrt_mul (sq_nonneg c), Real.sqrt_sq hc.le]
    simp only [ddVacuum, e, hv, vec_eta]
    field_simp
  · intro i j k
    have h := hasDerivAt_dd r hn i j k
    refine h.congr_deriv ?_
    simp only [dqVacuum, vec_eta]; ring
  · intro i j k
    have h := hasDerivAt_dd r hn j k i
    refine h.congr_deriv ?_
    have h1 : eye i k = eye k i := by unfold eye; simp [eq_comm]
    have h2 : eye i j = eye j i := by unfold eye; simp [eq_comm]
    simp only [qdVacuum, vec_eta]; rw [h1, h2]; ring

/-- A separation to which the theorem applies. -/
example : (![1, 2, 3] : V3) ≠ 0 := by
  intro h; have := congrFun h 0; simp at this

/-! ## C46 -/

/-- Specification: the field of the image of a dipole in a conducting plane z = 0.  The image of
(dx, dy, dz) is (−dx, −dy, dz); `u` is the vector from the image to the other atom. -/
noncomputable def imageTensor (u : V3) (i j : Fin 3) : ℝ :=
  ddVacuum (u 0) (u 1) (u 2) i j * (![-1, -1, 1] : V3) j

theorem hasDerivAt_image (u : V3) (hu : norm3 u ≠ 0) (i j k : Fin 3) :
    HasDerivAt (fun t => imageTensor (Function.update u k t) i j)
      ((3 / norm3 u ^ 5 * (eye i j * u k + u i * eye j k + u j * eye i k)
        - 15 / norm3 u ^ 7 * u i * u j * u k) * (![-1, -1, 1] : V3) j) (u k) :=
  (hasDerivAt_dd u hu i j k).mul_const _

theorem norm_u {x zp : ℝ} (h : x ≠ 0 ∨ zp ≠ 0) : 0 < norm3 ![x, 0, zp] := by
  unfold norm3
  apply Real.sqrt_pos.mpr
  simp only [Matrix.cons_val_zero, Matrix.cons_val_one, Matrix.cons_val]
  rcases h with h | h
  · nlinarith [mul_self_pos.mpr h, mul_self_nonneg zp]
  · nlinarith [mul_self_pos.mpr h, mul_self_nonneg x]

/-- **C46 (partial).** For all surface parameters with a non-zero image distance: the surface term is
the image-dipole tensor; exchanging the atoms (x → −x, zA ↔ zB) transposes it; its derivatives with
respect to the x and z coordinates of the quadrupole atom are the dipole–quadrupole surface terms
(moving atom B in x by t changes x by −t, hence the sign); whatever the separation, zA + zB is twice the
distance given.  Missing: the y derivatives (`C46_y_gradient_fails`) and the rejection of atoms inside
the plate (`C46_atom_inside_plate_fails`). -/
theorem C46_surface_tensor_partial (x zA zB : ℝ) (h : x ≠ 0 ∨ zA + zB ≠ 0) :
    (∀ i j, ddPlate x zA zB i j = imageTensor ![x, 0, zA + zB] i j) ∧
    (∀ i j, ddPlate (-x) zB zA i j = ddPlate x zA zB j i) ∧
    (∀ i j, HasDerivAt (fun t => imageTensor ![t, 0, zA + zB] i j) (-dqPlate x zA zB i j 0) x) ∧
    (∀ i j, HasDerivAt (fun t => imageTensor ![x, 0, t] i j) (dqPlate x zA zB i j 2) (zA + zB)) ∧
    (∀ j k, HasDerivAt (fun t => imageTensor ![t, 0, zA + zB] j k) (qdPlate x zA zB 0 j k) x) ∧
    (∀ j k, HasDerivAt (fun t => imageTensor ![x, 0, t] j k) (qdPlate x zA zB 2 j k) (zA + zB)) ∧
    (∀ z d, (surfaceHeights x z d).1 + (surfaceHeights x z d).2 = 2 * d) := by
  have hp := norm_u h
  have hne := hp.ne'
  have hN := norm3_sq ![x, 0, zA + zB]
  have hneg : norm3 ![-x, 0, zA + zB] = norm3 ![x, 0, zA + zB] := by simp [norm3]
  have hsq : Real.sqrt (x * x + (zA + zB) * (zA + zB)) = norm3 ![x, 0, zA + zB] := by
    simp [norm3]
  simp only [Matrix.cons_val_zero, Matrix.cons_val_one, Matrix.cons_val, mul_zero, add_zero] at hN
  have hx : ∀ t, Function.update ![x, 0, zA + zB] 0 t = ![t, 0, zA + zB] := by
    intro t; ext i; fin_cases i <;> rfl
  have hz : ∀ t, Function.update ![x, 0, zA + zB] 2 t = ![x, 0, t] := by
    intro t; ext i; fin_cases i <;> rfl
  have dx := fun i j => hasDerivAt_image ![x, 0, zA + zB] hne i j 0
  have dz := fun i j => hasDerivAt_image ![x, 0, zA + zB] hne i j 2
  simp only [hx] at dx
  simp only [hz] at dz
  generalize hzp : zA + zB = zp at *
  generalize hn : norm3 ![x, 0, zp] = N at *
  refine ⟨?_, ?_, ?_, ?_, ?_, ?_, ?_⟩
  · intro i j
    simp only [ddPlate, imageTensor, ddVacuum, hzp, hsq]
    have e : norm3 ![(![x, 0, zp] : V3) 0, (![x, 0, zp] : V3) 1, (![x, 0, zp] : V3) 2] = N := by
      rw [vec_eta]; exact hn
    rw [e]
    fin_cases i <;> fin_cases j <;> simp [plateFirst, plateSecond, eye] <;> field_simp
    all_goals first | ring1 | linear_combination (3 : ℝ) * hN | linear_combination (-3 : ℝ) * hN
  · intro i j
    have e : Real.sqrt (-x * -x + zp * zp) = N := by rw [← hsq]; ring_nf
    simp only [ddPlate, add_comm zB zA, hzp, e, hsq]
    fin_cases i <;> fin_cases j <;> simp [plateFirst, plateSecond]
  · intro i j
    refine (dx i j).congr_deriv ?_
    simp only [dqPlate, hzp, hneg]
    fin_cases i <;> fin_cases j <;> simp [plateFirst, plateSecond, dqPlateGrad, eye] <;> field_simp
    all_goals first | ring1 | linear_combination (15 * x) * hN | linear_combination (-15 * x) * hN | skip
  · intro i j
    refine (dz i j).congr_deriv ?_
    simp only [dqPlate, hzp, hneg]
    fin_cases i <;> fin_cases j <;> simp [plateFirst, plateSecond, dqPlateGrad, eye] <;> field_simp
    all_goals first | ring1 | linear_combination (15 * zp) * hN | linear_combination (-15 * zp) * hN | skip
  · intro i j
    refine (dx i j).congr_deriv ?_
    simp only [qdPlate, hzp, hn]
    fin_cases i <;> fin_cases j <;> simp [plateFirst, plateSecond, qdPlateGrad, eye] <;> field_simp
    all_goals first | ring1 | linear_combination (15 * x) * hN | linear_combination (-15 * x) * hN | skip
  · intro i j
    refine (dz i j).congr_deriv ?_
    simp only [qdPlate, hzp, hn]
    fin_cases i <;> fin_cases j <;> simp [plateFirst, plateSecond, qdPlateGrad, eye] <;> field_simp
    all_goals first | ring1 | linear_combination (15 * zp) * hN | linear_combination (-15 * zp) * hN | skip
  · intro z d
    simp only [surfaceHeights]; ring

/-- An admissible configuration. -/
example : (1 : ℝ) ≠ 0 ∨ (2 : ℝ) + 2 ≠ 0 := Or.inl one_ne_zero

/-- **C46 fails** for the y gradients: the derivative of the image tensor with respect to y is not zero,
but the dipole–quadrupole surface term has a zero there (for every x ≠ 0). -/
theorem C46_y_gradient_fails (x zA zB : ℝ) (hx : x ≠ 0) :
    ∃ v : ℝ, v ≠ 0 ∧ HasDerivAt (fun t => imageTensor ![x, t, zA + zB] 0 1) v 0 ∧ dqPlate x zA zB 0 1 1 = 0 ∧
      HasDerivAt (fun t => imageTensor ![x, t, zA + zB] 1 0) v 0 ∧ qdPlate x zA zB 1 1 0 = 0 := by
  have hp := norm_u (zp := zA + zB) (Or.inl hx)
  have hy : ∀ t, Function.update ![x, 0, zA + zB] 1 t = ![x, t, zA + zB] := by
    intro t; ext i; fin_cases i <;> rfl
  have d1 := hasDerivAt_image ![x, 0, zA + zB] hp.ne' 0 1 1
  have d2 := hasDerivAt_image ![x, 0, zA + zB] hp.ne' 1 0 1
  simp only [hy] at d1 d2
  refine ⟨-(3 / norm3 ![x, 0, zA + zB] ^ 5 * x), ?_, ?_, ?_, ?_, ?_⟩
  · apply neg_ne_zero.mpr
    exact mul_ne_zero (div_ne_zero (by norm_num) (pow_ne_zero 5 hp.ne')) hx
  · refine d1.congr_deriv ?_
    simp [eye]
  · simp [dqPlate, plateFirst, plateSecond, dqPlateGrad]
  · refine d2.congr_deriv ?_
    simp [eye]
  · simp [qdPlate, plateFirst, plateSecond, qdPlateGrad]

/-- **C46 fails** for atoms inside the plate: for two atoms above each other (x = 0) at distance z, the
centre being at height d < z/2, the lower atom is at height d − z/2 < 0, but `addSurface` accepts. -/
theorem C46_atom_inside_plate_fails (z d : ℝ) (hd : 0 ≤ d) (hin : d - z / 2 < 0) :
    ((GT.new 0 0 z).addSurface d).1 = .ok () := by
  have hh : surfaceHeights 0 z d = (d, d) := by simp [surfaceHeights]
  unfold GT.addSurface
  rw [if_neg (by simp [GT.new])]
  simp only [GT.new, hh]
  rw [if_neg (by push Not; exact ⟨hd, hd⟩)]

example : (0 : ℝ) ≤ 1 ∧ (1 : ℝ) - 10 / 2 < 0 := by norm_num

/-! ## C47 -/

/-- The surface distance in force after a history: the one of the last successful `addSurface`. -/
noncomputable def lastSurface (x y z : ℝ) : List GOp → Option ℝ → Option ℝ
  | [], s => s
  | .addSurface d :: ops, s =>
    lastSurface x y z ops (if y = 0 ∧ 0 ≤ (surfaceHeights x z d).1 ∧ 0 ≤ (surfaceHeights x z d).2 then some d else s)
  | _ :: ops, s => lastSurface x y z ops s

/-- No `addSurface` of the history fails because an atom would be inside the plate. -/
def NoInside (x y z : ℝ) (ops : List GOp) : Prop :=
  ∀ d, GOp.addSurface d ∈ ops → y = 0 → 0 ≤ (surfaceHeights x z d).1 ∧ 0 ≤ (surfaceHeights x z d).2

/-- What the getters should return for a surface distance (none: vacuum). -/
noncomputable def ddSpec (x y z : ℝ) : Option ℝ → Fin 3 → Fin 3 → ℝ
  | none => ddVacuum x y z
  | some d => fun i j => ddVacuum x y z i j + imageTensor ![x, 0, 2 * d] i j

/-- The same for the dipole–quadrupole tensor, in terms of the two atoms' heights. -/
noncomputable def dqSpec (x y z : ℝ) : Option ℝ → Fin 3 → Fin 3 → Fin 3 → ℝ
  | none => dqVacuum x y z
  | some d => fun i j k => dqVacuum x y z i j k + dqPlate x d d i j k

/-- The same for the quadrupole–dipole tensor. -/
noncomputable def qdSpec (x y z : ℝ) : Option ℝ → Fin 3 → Fin 3 → Fin 3 → ℝ
  | none => qdVacuum x y z
  | some d => fun i j k => qdVacuum x y z i j k + qdPlate x d d i j k

/-- Invariant: stored tensors and heights belong to surface distance `s`. -/
structure GInv (x y z : ℝ) (s : Option ℝ) (g : GT) : Prop where
  hx : g.x = x
  hy : g.y = y
  hz : g.z = z
  hAB : g.zAB = s.map (surfaceHeights x z)
  hdd : ∀ t, g.dd = some t → t = { g with dd := none }.getDD.1
  hdq : ∀ t, g.dq = some t → t = { g with dq := none }.getDQ.1
  hqd : ∀ t, g.qd = some t → t = { g with qd := none }.getQD.1

theorem ginv_step {x y z : ℝ} {s : Option ℝ} {g : GT} (h : GInv x y z s g) (o : GOp)
    (hin : NoInside x y z [o]) : GInv x y z (lastSurface x y z [o] s) (o.run g) := by
  cases o with
  | addSurface d =>
    simp only [GOp.run, GT.addSurface, lastSurface]
    by_cases hy : y = 0
    · have hn := hin d (by simp) hy
      rw [if_neg (show ¬ g.y ≠ 0 by rw [h.hy]; simpa using hy),
        if_pos (show y = 0 ∧ 0 ≤ (surfaceHeights x z d).1 ∧ 0 ≤ (surfaceHeights x z d).2 from ⟨hy, hn⟩), h.hx, h.hz,
        if_neg (by push Not; exact hn)]
      exact ⟨rfl, h.hy, rfl, rfl, by simp, by simp, by simp⟩
    · rw [if_pos (show g.y ≠ 0 by rw [h.hy]; exact hy),
        if_neg (show ¬ (y = 0 ∧ 0 ≤ (surfaceHeights x z d).1 ∧ 0 ≤ (surfaceHeights x z d).2) by simp [hy])]
      exact h
  | getDD =>
    simp only [GOp.run, lastSurface]
    unfold GT.getDD
    cases hd : g.dd with
    | some t => exact h
    | none =>
      refine ⟨h.hx, h.hy, h.hz, h.hAB, ?_, h.hdq, h.hqd⟩
      intro t ht
      simp only [Option.some.injEq] at ht
      rw [← ht]; rfl
  | getDQ =>
    simp only [GOp.run, lastSurface]
    unfold GT.getDQ
    cases hd : g.dq with
    | some t => exact h
    | none =>
      refine ⟨h.hx, h.hy, h.hz, h.hAB, h.hdd, ?_, h.hqd⟩
      intro t ht
      simp only [Option.some.injEq] at ht
      rw [← ht]; rfl
  | getQD =>
    simp only [GOp.run, lastSurface]
    unfold GT.getQD
    cases hd : g.qd with
    | some t => exact h
    | none =>
      refine ⟨h.hx, h.hy, h.hz, h.hAB, h.hdd, h.hdq, ?_⟩
      intro t ht
      simp only [Option.some.injEq] at ht
      rw [← ht]; rfl

theorem lastSurface_cons (x y z : ℝ) (o : GOp) (ops : List GOp) (s : Option ℝ) :
    lastSurface x y z (o :: ops) s = lastSurface x y z ops (lastSurface x y z [o] s) := by
  cases o <;> rfl

theorem ginv_hist {x y z : ℝ} (ops : List GOp) {s : Option ℝ} {g : GT} (h : GInv x y z s g)
    (hin : NoInside x y z ops) : GInv x y z (lastSurface x y z ops s) (ops.foldl GOp.run g) := by
  induction ops generalizing s g with
  | nil => exact h
  | cons o ops ih =>
    rw [lastSurface_cons, List.foldl_cons]
    exact ih (ginv_step h o (fun d hd => hin d (by simp at hd; simp [hd])))
      (fun d hd => hin d (List.mem_cons_of_mem _ hd))

/-- **C47 (partial).** After every history of calls in which no `addSurface` failed because an atom is
inside the plate (failures because y ≠ 0 are allowed), the three getters return the tensors of the
surface set last, whatever was computed before.  Missing: histories with such failures
(`C47_failed_surface_fails`). -/
theorem C47_history_partial (x y z : ℝ) (ops : List GOp) (hin : NoInside x y z ops)
    (hd : x ≠ 0 ∨ ∀ d, lastSurface x y z ops none = some d → d ≠ 0) :
    let g := ops.foldl GOp.run (GT.new x y z)
    g.getDD.1 = ddSpec x y z (lastSurface x y z ops none) ∧
    g.getDQ.1 = dqSpec x y z (lastSurface x y z ops none) ∧
    g.getQD.1 = qdSpec x y z (lastSurface x y z ops none) := by
  have h := ginv_hist (x := x) (y := y) (z := z) ops (s := none) (g := GT.new x y z)
    ⟨rfl, rfl, rfl, rfl, by simp [GT.new], by simp [GT.new], by simp [GT.new]⟩ hin
  intro g
  change GInv x y z _ g at h
  generalize g = g at *
  have hsum : ∀ d, (surfaceHeights x z d).1 + (surfaceHeights x z d).2 = d + d := by
    intro d; simp only [surfaceHeights]; ring
  have e1 : { g with dd := none }.getDD.1 = ddSpec x y z (lastSurface x y z ops none) := by
    simp only [GT.getDD, h.hAB, h.hx, h.hy, h.hz]
    cases hs : lastSurface x y z ops none with
    | none => rfl
    | some d =>
      have hd' : x ≠ 0 ∨ (surfaceHeights x z d).1 + (surfaceHeights x z d).2 ≠ 0 := by
        rcases hd with hd | hd
        · exact Or.inl hd
        · right; rw [hsum]; have := hd d hs; intro h0; apply this; linarith
      have := (C46_surface_tensor_partial x _ _ hd').1
      simp only [Option.map_some, ddSpec]
      ext i j
      rw [this, hsum]; ring_nf
  have e2 : { g with dq := none }.getDQ.1 = dqSpec x y z (lastSurface x y z ops none) := by
    simp only [GT.getDQ, h.hAB, h.hx, h.hy, h.hz]
    cases lastSurface x y z ops none with
    | none => rfl
    | some d =>
      simp only [Option.map_some, dqSpec, dqPlate, hsum]
  have e3 : { g with qd := none }.getQD.1 = qdSpec x y z (lastSurface x y z ops none) := by
    simp only [GT.getQD, h.hAB, h.hx, h.hy, h.hz]
    cases lastSurface x y z ops none with
    | none => rfl
    | some d =>
      simp only [Option.map_some, qdSpec, qdPlate, hsum]
  refine ⟨?_, ?_, ?_⟩
  · cases hc : g.dd with
    | some t => rw [← e1, ← h.hdd t hc]; simp [GT.getDD, hc]
    | none => rw [← e1]; simp [GT.getDD, hc]
  · cases hc : g.dq with
    | some t => rw [← e2, ← h.hdq t hc]; simp [GT.getDQ, hc]
    | none => rw [← e2]; simp [GT.getDQ, hc]
  · cases hc : g.qd with
    | some t => rw [← e3, ← h.hqd t hc]; simp [GT.getQD, hc]
    | none => rw [← e3]; simp [GT.getQD, hc]

/-- A history with two surfaces and getters in between. -/
example : NoInside 0 0 1 [.getDD, .addSurface 2, .getDQ, .addSurface 3, .getDD] := by
  intro d hd _
  simp only [List.mem_cons, reduceCtorEq, GOp.addSurface.injEq, List.not_mem_nil, or_false, false_or] at hd
  rcases hd with rfl | rfl <;> simp [surfaceHeights]

/-- **C47 fails** after a rejected `addSurface`: no surface was set, but the dipole–dipole getter, if not
called before, includes one. -/
theorem C47_failed_surface_fails :
    ∃ x z d : ℝ, ((GT.new x 0 z).addSurface d).1 = .throw ∧
      ((GT.new x 0 z).addSurface d).2.getDD.1 ≠ ddSpec x 0 z none ∧
      ((GT.new x 0 z).getDD.2.addSurface d).2.getDD.1 = ddSpec x 0 z none := by
  have hh : surfaceHeights 0 1 (-1) = (-1, -1) := by simp [surfaceHeights]
  refine ⟨0, 1, -1, ?_, ?_, ?_⟩
  · simp only [GT.addSurface, GT.new, hh]
    rw [if_neg (by simp), if_pos (by norm_num)]
  · simp only [GT.addSurface, GT.new, hh]
    rw [if_neg (by simp), if_pos (by norm_num)]
    simp only [GT.getDD, ddSpec]
    intro h
    have := congrFun (congrFun h 0) 0
    have h2 : ddPlate 0 (-1) (-1) 0 0 = 0 := by linarith
    simp [ddPlate, plateFirst, plateSecond] at h2
    rw [Real.sqrt_eq_zero'] at h2
    norm_num at h2
  · simp only [GT.addSurface, GT.new, GT.getDD, hh]
    rw [if_neg (by simp), if_pos (by norm_num)]
    rfl

end PI
