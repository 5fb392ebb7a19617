import Verif.Field.Model
import Verif.Element.Props
import Verif.Sys.Param
import Mathlib.Tactic.LinearCombination
import Mathlib.Tactic.Linarith

/-! # C37–C40, C70: one atom in external fields -/

namespace PI
open Matrix

/-! ## C39 spherical components -/

theorem fsqrt2_sq : Real.sqrt 2 * Real.sqrt 2 = 2 := Real.mul_self_sqrt (by norm_num)

theorem fsqrt2_ne : Real.sqrt 2 ≠ 0 := by
  have := fsqrt2_sq
  intro h; rw [h] at this; norm_num at this

theorem sph_minus (v : Vec3) : sph v (-1) = -(starRingEnd ℂ) (sph v 1) := by
  unfold sph
  norm_num
  apply Complex.ext <;> simp [neg_div]

theorem sph_plus (v : Vec3) : sph v 1 = -(starRingEnd ℂ) (sph v (-1)) := by
  rw [sph_minus]; simp

theorem sph_zero_conj (v : Vec3) : (starRingEnd ℂ) (sph v 0) = sph v 0 := by
  unfold sph
  norm_num
  apply Complex.ext <;> simp

/-- Specification: the spherical components of a vector as in angular momentum textbooks. -/
noncomputable def sphSpec (v : Vec3) (q : ℤ) : ℂ :=
  if q = 1 then -((v.x : ℂ) + Complex.I * v.y) / (Real.sqrt 2 : ℂ)
  else if q = -1 then ((v.x : ℂ) - Complex.I * v.y) / (Real.sqrt 2 : ℂ)
  else if q = 0 then v.z else 0

theorem sph_eq_spec (v : Vec3) (q : ℤ) : sph v q = sphSpec v q := by
  unfold sph sphSpec
  split_ifs
  · rw [eq_div_iff (by exact_mod_cast fsqrt2_ne)]
    apply Complex.ext <;> simp [fsqrt2_ne]
  · rw [eq_div_iff (by exact_mod_cast fsqrt2_ne)]
    apply Complex.ext <;> simp [fsqrt2_ne]
  · rfl
  · rfl

/-- **C39.** For all field vectors: the components are the textbook ones; the scalar product is E₀d₀ − E₊d₋ − E₋d₊; E₋ = −conj E₊; the components
determine the field; the real scalar type rejects exactly the fields with non-zero y component and otherwise stores the same (real) numbers. -/
theorem C39_spherical_components (v w : Vec3) :
    (∀ q, sph v q = sphSpec v q) ∧
    ((v.x * w.x + v.y * w.y + v.z * w.z : ℝ) : ℂ) = sph v 0 * sph w 0 - sph v 1 * sph w (-1) - sph v (-1) * sph w 1 ∧
    sph v (-1) = -(starRingEnd ℂ) (sph v 1) ∧
    ((∀ q, sph v q = sph w q) → v = w) ∧
    (∀ q, sphReal v q = .throw ↔ v.y ≠ 0) ∧
    (∀ q, v.y = 0 → ∃ x : ℝ, sphReal v q = .ok x ∧ sph v q = (x : ℂ)) := by
  refine ⟨sph_eq_spec v, ?_, sph_minus v, ?_, ?_, ?_⟩
  · simp only [sph]
    norm_num
    have h2 := fsqrt2_sq
    have hn := fsqrt2_ne
    apply Complex.ext
    · simp
      field_simp
      rw [show Real.sqrt 2 ^ 2 = 2 by rw [pow_two, h2]]
      ring
    · simp
      field_simp
      ring
  · intro h
    have h1 := h (-1)
    have h0 := h 0
    simp only [sph] at h1 h0
    norm_num at h1 h0
    obtain ⟨a, b⟩ := h1
    have hn := fsqrt2_ne
    cases v; cases w
    simp only [Vec3.mk.injEq] at *
    refine ⟨?_, ?_, h0⟩
    · exact a
    · exact b
  · intro q
    unfold sphReal
    split_ifs with h <;> simp_all
  · intro q hy
    unfold sphReal
    rw [if_neg (by simpa using hy)]
    refine ⟨_, rfl, ?_⟩
    unfold sph
    rw [hy]
    split_ifs <;> first | (apply Complex.ext <;> simp) | simp

/-- A complex field that the real type rejects and one it accepts. -/
example : sphReal ⟨0, 1, 0⟩ 1 = .throw ∧ sphReal ⟨0, 0, 3⟩ 0 = .ok 3 := by
  constructor <;> simp [sphReal]

/-! ## C38 diamagnetic terms -/

/-- Specification: r² times Racah's normalized spherical harmonics C_{kq}(r) for k = 0, 2. -/
noncomputable def solidC (r : Vec3) (k q : ℤ) : ℂ :=
  if k = 0 then ((r.x ^ 2 + r.y ^ 2 + r.z ^ 2 : ℝ) : ℂ)
  else if q = 0 then (((3 * r.z ^ 2 - (r.x ^ 2 + r.y ^ 2 + r.z ^ 2)) / 2 : ℝ) : ℂ)
  else if q = 1 then -((Real.sqrt (3 / 2) * r.z : ℝ) : ℂ) * (r.x + Complex.I * r.y)
  else if q = -1 then ((Real.sqrt (3 / 2) * r.z : ℝ) : ℂ) * (r.x - Complex.I * r.y)
  else if q = 2 then ((Real.sqrt (3 / 8) : ℝ) : ℂ) * (r.x + Complex.I * r.y) ^ 2
  else ((Real.sqrt (3 / 8) : ℝ) : ℂ) * (r.x - Complex.I * r.y) ^ 2

/-- The six diamagnetic keys. -/
def diaKeys : List (ℤ × ℤ) := [(0, 0), (2, 0), (2, 1), (2, -1), (2, 2), (2, -2)]

theorem isqrt2_sq : ((Real.sqrt 2 : ℝ) : ℂ) * ((Real.sqrt 2 : ℝ) : ℂ) = 2 := by
  rw [← Complex.ofReal_mul, fsqrt2_sq]; norm_num

/-- **C38.** For all B and r: 2/3 times the sum over the six keys of the factor that `addInteraction` uses times r² C_{kq}(r) equals
|B|² r² − (B·r)². -/
theorem C38_diamagnetic_identity (p : FieldParams) (r : Vec3) :
    (2 / 3 : ℂ) * (diaKeys.map fun i => addCoef p (.d i.1 i.2) * solidC r i.1 i.2).sum
      = (((p.B.x ^ 2 + p.B.y ^ 2 + p.B.z ^ 2) * (r.x ^ 2 + r.y ^ 2 + r.z ^ 2)
          - (p.B.x * r.x + p.B.y * r.y + p.B.z * r.z) ^ 2 : ℝ) : ℂ) := by
  have hs : ((Real.sqrt 2 : ℝ) : ℂ) ≠ 0 := by exact_mod_cast fsqrt2_ne
  have e1 : sph p.B 1 = -((p.B.x : ℂ) + Complex.I * p.B.y) / (Real.sqrt 2 : ℂ) := by rw [sph_eq_spec]; simp [sphSpec]
  have em : sph p.B (-1) = ((p.B.x : ℂ) - Complex.I * p.B.y) / (Real.sqrt 2 : ℂ) := by rw [sph_eq_spec]; simp [sphSpec]
  have e0 : sph p.B 0 = p.B.z := by rw [sph_eq_spec]; simp [sphSpec]
  have i2 : Complex.I ^ 2 = -1 := Complex.I_sq
  have hq : ((Real.sqrt 2 : ℝ) : ℂ) ^ 2 = 2 := by rw [pow_two, isqrt2_sq]
  simp only [diaKeys, List.map_cons, List.map_nil, List.sum_cons, List.sum_nil, addCoef, solidC, diaTerm]
  norm_num
  rw [e1, em, e0]
  generalize hA : (p.B.x : ℂ) = bx
  generalize (p.B.y : ℂ) = bY
  generalize (p.B.z : ℂ) = bz
  generalize (r.x : ℂ) = rx
  generalize (r.y : ℂ) = ry
  generalize (r.z : ℂ) = rz
  have e8 : ((Real.sqrt 8 : ℝ) : ℂ) = 2 * ((Real.sqrt 2 : ℝ) : ℂ) := by
    rw [show (8 : ℝ) = 2 * 2 * 2 by norm_num, Real.sqrt_mul (by norm_num), Real.sqrt_mul_self (by norm_num)]; push_cast; rfl
  have h3 : ((Real.sqrt 3 : ℝ) : ℂ) * ((Real.sqrt 3 : ℝ) : ℂ) = 3 := by
    rw [← Complex.ofReal_mul, Real.mul_self_sqrt (by norm_num)]; norm_num
  have d2 : ∀ x y : ℂ, x / ((Real.sqrt 2 : ℝ) : ℂ) * (y / ((Real.sqrt 2 : ℝ) : ℂ)) = x * y / 2 := by
    intro x y; rw [div_mul_div_comm, isqrt2_sq]
  have t1 : ∀ x y z R : ℂ, x * (y / ((Real.sqrt 2 : ℝ) : ℂ)) * ((Real.sqrt 3 : ℝ) : ℂ) * (((Real.sqrt 3 : ℝ) : ℂ) / ((Real.sqrt 2 : ℝ) : ℂ) * z * R)
      = 3 / 2 * (x * y * z * R) := by
    intro x y z R
    calc _ = x * z * R * (((Real.sqrt 3 : ℝ) : ℂ) * (y / ((Real.sqrt 2 : ℝ) : ℂ) * (((Real.sqrt 3 : ℝ) : ℂ) / ((Real.sqrt 2 : ℝ) : ℂ)))) := by ring
      _ = x * z * R * (((Real.sqrt 3 : ℝ) : ℂ) * ((Real.sqrt 3 : ℝ) : ℂ)) * y / 2 := by rw [d2]; ring
      _ = _ := by rw [h3]; ring
  have t3 : ∀ x R : ℂ, x * (((Real.sqrt 3 : ℝ) : ℂ) / ((Real.sqrt 2 : ℝ) : ℂ)) * (((Real.sqrt 3 : ℝ) : ℂ) / ((Real.sqrt 8 : ℝ) : ℂ) * R)
      = 3 / 4 * (x * R) := by
    intro x R
    rw [e8]
    calc _ = x * R / 2 * (((Real.sqrt 3 : ℝ) : ℂ) / ((Real.sqrt 2 : ℝ) : ℂ) * (((Real.sqrt 3 : ℝ) : ℂ) / ((Real.sqrt 2 : ℝ) : ℂ))) := by ring
      _ = x * R / 2 * ((((Real.sqrt 3 : ℝ) : ℂ) * ((Real.sqrt 3 : ℝ) : ℂ)) / 2) := by rw [d2]
      _ = _ := by rw [h3]; ring
  rw [t1, t1, t3, t3]
  simp only [d2]
  have i4 : Complex.I ^ 4 = 1 := by rw [show (4 : ℕ) = 2 * 2 by norm_num, pow_mul, i2]; norm_num
  ring_nf
  rw [i2, i4]
  ring

/-- The identity is not trivial: for B along x and r along z the value is 1. -/
example (p : FieldParams) (h : p.B = ⟨1, 0, 0⟩) :
    (2 / 3 : ℂ) * (diaKeys.map fun i => addCoef p (.d i.1 i.2) * solidC ⟨0, 0, 1⟩ i.1 i.2).sum = 1 := by
  rw [C38_diamagnetic_identity, h]; norm_num

/-! ## C37 the field operators -/

variable {N : ℕ}

/-- The states of a SystemOne: physical states of one species, hence of one spin, and artificial ones. -/
def GoodStates (st : Fin N → Option QN) : Prop :=
  ∀ i a, st i = some a → a.Physical ∧ ∀ j b, st j = some b → a.species = b.species ∧ a.s = b.s

/-- Specification: the matrix of component q of a spherical tensor whose element between two states is `f a b` when
m_a − m_b = q and zero otherwise (`m` is doubled); zero for artificial states. -/
noncomputable def tensorMat (st : Fin N → Option QN) (f : QN → QN → ℝ) (q : ℤ) : Matrix (Fin N) (Fin N) ℂ :=
  fun r c => match st r, st c with
    | some a, some b => if a.m - b.m = 2 * q then (f a b : ℂ) else 0
    | _, _ => 0

/-- Pairs of states on which the matrix elements are Hermitian and respect the selection rules. -/
structure TensorOK (sel : QN → QN → ℤ → Bool) (val f : QN → QN → ℝ) (a b : QN) : Prop where
  yes : ∀ q, sel a b q = true → a.m = b.m + 2 * q ∧ val a b = f a b
  no : ∀ q, sel a b q = false → a.m = b.m + 2 * q → f a b = 0
  herm : f b a = sgn ((a.m - b.m) / 2) * f a b

theorem sgn_neg_one_pow (q : ℤ) : ((sgn q : ℝ) : ℂ) = (-1 : ℂ) ^ q.natAbs := by
  unfold sgn
  split_ifs with h
  · rw [Even.neg_one_pow]; · simp
    rw [Int.natAbs_even]; exact Int.even_iff.mpr h
  · rw [Odd.neg_one_pow]; · simp
    rw [Int.natAbs_odd]; exact Int.odd_iff.mpr (by omega)

theorem compOp_zero (raw : ℤ → Matrix (Fin N) (Fin N) ℂ) (q : ℤ) (r c : Fin N) (h1 : ∀ i, raw i r c = 0) (h2 : ∀ i, raw i c r = 0) :
    compOp raw q r c = 0 := by
  unfold compOp
  by_cases h0 : q = 0
  · rw [if_pos h0]
    unfold lowerView
    rw [h1, h2]
    simp
  · rw [if_neg h0]
    by_cases h3 : 0 < q
    · rw [if_pos h3, h1]
    · rw [if_neg h3, Matrix.smul_apply, Matrix.conjTranspose_apply, h2]
      simp

theorem compOp_eq (st : Fin N → Option QN) (sel : QN → QN → ℤ → Bool) (val f : QN → QN → ℝ)
    (h : ∀ i j a b, st i = some a → st j = some b → TensorOK sel val f a b) (q : ℤ) :
    compOp (rawKey st sel val) q = tensorMat st f q := by
  have raw : ∀ (i : ℤ) (r c : Fin N) (a b : QN), st r = some a → st c = some b → ¬ (i = 0 ∧ r < c) →
      rawKey st sel val i r c = if a.m - b.m = 2 * i then (f a b : ℂ) else 0 := by
    intro i r c a b ha hb hi
    have t := h r c a b ha hb
    unfold rawKey statesMat
    rw [ha, hb]
    dsimp only
    cases hs : sel a b i with
    | true =>
      obtain ⟨h1, h2⟩ := t.yes i hs
      rw [if_neg (by tauto), if_pos (by omega), h2]
    | false =>
      rw [if_pos (by tauto)]
      split_ifs with hm
      · rw [t.no i hs (by omega)]; simp
      · rfl
  have art1 : ∀ (i : ℤ) (r c : Fin N), st r = none → rawKey st sel val i r c = 0 := by
    intro i r c hr; unfold rawKey statesMat; rw [hr]
  have art2 : ∀ (i : ℤ) (r c : Fin N), st c = none → rawKey st sel val i r c = 0 := by
    intro i r c hc; unfold rawKey statesMat; rw [hc]; cases st r <;> rfl
  have tart1 : ∀ (r c : Fin N), st r = none → tensorMat st f q r c = 0 := by
    intro r c hr; unfold tensorMat; rw [hr]
  have tart2 : ∀ (r c : Fin N), st c = none → tensorMat st f q r c = 0 := by
    intro r c hc; unfold tensorMat; rw [hc]; cases st r <;> rfl
  ext r c
  cases hr : st r with
  | none =>
    rw [tart1 r c hr]
    exact compOp_zero _ q r c (fun i => art1 i r c hr) (fun i => art2 i c r hr)
  | some a =>
    cases hc : st c with
    | none =>
      rw [tart2 r c hc]
      exact compOp_zero _ q r c (fun i => art2 i r c hc) (fun i => art1 i c r hc)
    | some b =>
      have t := h r c a b hr hc
      have ht : tensorMat st f q r c = if a.m - b.m = 2 * q then (f a b : ℂ) else 0 := by
        unfold tensorMat; rw [hr, hc]
      rw [ht]
      unfold compOp
      by_cases h0 : q = 0
      · rw [if_pos h0]
        unfold lowerView
        split_ifs with h1 h2 h3 h3 h3
        · rw [raw 0 r c a b hr hc (by omega), if_pos (by omega)]
        · rw [raw 0 r c a b hr hc (by omega), if_neg (by omega)]
        · rw [raw 0 r c a b hr hc (by omega), if_pos (by omega)]; simp
        · rw [raw 0 r c a b hr hc (by omega), if_neg (by omega)]; simp
        · rw [raw 0 c r b a hc hr (by omega), if_pos (by omega), t.herm, show a.m - b.m = 0 by omega]
          simp [sgn_zero]
        · rw [raw 0 c r b a hc hr (by omega), if_neg (by omega)]; simp
      · rw [if_neg h0]
        split_ifs with h1 h2 h2
        · rw [raw q r c a b hr hc (by omega), if_pos h2]
        · rw [raw q r c a b hr hc (by omega), if_neg h2]
        · rw [Matrix.smul_apply, Matrix.conjTranspose_apply, raw (-q) c r b a hc hr (by omega), if_pos (by omega), t.herm, h2]
          have e : 2 * q / 2 = q := by omega
          rw [e]
          simp only [smul_eq_mul, Complex.star_def, Complex.conj_ofReal]
          push_cast
          rw [← sgn_neg_one_pow, ← mul_assoc, ← Complex.ofReal_mul, sgn_self]
          simp
        · rw [Matrix.smul_apply, Matrix.conjTranspose_apply, raw (-q) c r b a hc hr (by omega), if_neg (by omega)]; simp

/-! The elements satisfy the conditions. -/

theorem multipole_tensorOK (C : ElemConsts) (radial : RadKey → ℝ) (me : Method) (a b : QN) (kr ka : ℤ) (hk : 0 ≤ ka)
    (ha : a.Physical) (hb : b.Physical) (hs : a.species = b.species) (hss : a.s = b.s) :
    TensorOK (fun a b => selMultipoleQ a b ka) (fun a b => outVal (electricMultipole C radial me a b kr ka))
      (fun a b => outVal (electricMultipole C radial me a b kr ka)) a b := by
  refine ⟨?_, ?_, ?_⟩
  · intro q hq
    refine ⟨?_, rfl⟩
    simp only [selMultipoleQ, Bool.and_eq_true, decide_eq_true_eq] at hq
    exact hq.1.1.2
  · intro q hq hm
    have := (C20_selection_rules_sound a b ka q hk).1 hq
    rw [electricMultipole_eq C radial me a b kr ka ha hb hs hss]
    have e : angularSpec ka a.j b.j a.m b.m * commutesSSpec a.s ka a.l b.l a.j b.j * multipoleSpec ka a.l b.l
        = multipoleAngular a b ka q := by
      unfold multipoleAngular angularSpec
      rw [show a.m - b.m = 2 * q by omega]
    rw [e, this]; simp [outVal]
  · obtain ⟨x, h1, -, h2⟩ := C21_multipole_hermitian C radial me a b kr ka ha hb hs hss
    rw [h1, h2]
    rfl

/-- The magnetic moment conserves l: between different l its element is zero (see C63). -/
noncomputable def magSpec (C : FieldConsts) (radial : RadKey → ℝ) (me : Method) (a b : QN) : ℝ :=
  if a.l = b.l then valB C radial me a b else 0

theorem magneticDipole_eq (C : ElemConsts) (radial : RadKey → ℝ) (me : Method) (a b : QN)
    (ha : a.Physical) (hb : b.Physical) (hs : a.species = b.species) (hss : a.s = b.s) (hl : a.l = b.l) :
    magneticDipole C radial me a b = .ok (-C.muB * radial (RadKey.make me a.species 0 a.n b.n a.l b.l a.j b.j) *
      (C.gL * (angularSpec 1 a.j b.j a.m b.m * commutesSSpec a.s 1 a.l b.l a.j b.j) * Real.sqrt (a.l * (a.l + 1) * (2 * a.l + 1)) +
       C.gS * (angularSpec 1 a.j b.j a.m b.m * commutesLSpec a.s 1 a.l b.l a.j b.j) *
        Real.sqrt ((a.s : ℝ) / 2 * (a.s / 2 + 1) * (a.s + 1)))) := by
  unfold magneticDipole
  rw [if_neg (by simp [hs])]
  unfold QN.Physical at ha hb
  have a1 := (C16_angular_order 1 a.j b.j a.m b.m (by omega) (by omega)).1
  have c1 := C17_commutes_order_partial a.s 1 a.l b.l a.j b.j (by omega) (by omega)
  rw [← a1, ← c1.1, ← c1.2.1 hl]
  simp only [Out.ok.injEq]
  ring

theorem magnetic_tensorOK (C : FieldConsts) (radial : RadKey → ℝ) (me : Method) (a b : QN)
    (ha : a.Physical) (hb : b.Physical) (hs : a.species = b.species) (hss : a.s = b.s) :
    TensorOK selMomentumQ (valB C radial me) (magSpec C radial me) a b := by
  refine ⟨?_, ?_, ?_⟩
  · intro q hq
    simp only [selMomentumQ, Bool.and_eq_true, decide_eq_true_eq] at hq
    exact ⟨hq.1.2, by rw [magSpec, if_pos hq.1.1.1]⟩
  · intro q hq hm
    unfold magSpec
    split_ifs with hl
    · obtain ⟨h1, h2⟩ := (C20_selection_rules_sound a b 1 q (by norm_num)).2.2.1 hq
      unfold valB
      rw [magneticDipole_eq C.elem radial me a b ha hb hs hss hl]
      unfold momentumAngularL at h1
      rw [if_pos hl] at h1
      unfold momentumAngularS at h2
      have e : angularSpec 1 a.j b.j a.m b.m = sgn ((a.j - a.m) / 2) * w3j a.j 2 b.j (-a.m) (2 * q) b.m := by
        unfold angularSpec
        rw [show a.m - b.m = 2 * q by omega]; norm_num
      rw [e, h1, h2]
      simp [outVal]
    · rfl
  · unfold magSpec
    by_cases hl : a.l = b.l
    · rw [if_pos hl, if_pos hl.symm]
      obtain ⟨x, h1, h2⟩ := C63_magnetic_hermitian_partial C.elem radial me a b ha hb hs hss hl
      unfold valB
      rw [h1, h2]; rfl
    · rw [if_neg hl, if_neg (fun h => hl h.symm)]; simp

theorem dia_tensorOK (C : FieldConsts) (radial : RadKey → ℝ) (me : Method) (a b : QN) (k : ℤ) (hk : 0 ≤ k)
    (ha : a.Physical) (hb : b.Physical) (hs : a.species = b.species) (hss : a.s = b.s) :
    TensorOK (fun a b => selMultipoleQ a b k) (valD C radial me k) (valD C radial me k) a b := by
  have t := multipole_tensorOK C.elem radial me a b 2 k hk ha hb hs hss
  refine ⟨fun q hq => ⟨(t.yes q hq).1, rfl⟩, ?_, ?_⟩
  · intro q hq hm
    have := t.no q hq hm
    unfold valD
    rw [this]; ring
  · have := t.herm
    unfold valD
    rw [this]; ring

/-- **C37 (operators).** For all lists of physical states of one species (and artificial ones): the operators the library builds are the spherical
tensor operators of the electric dipole, the magnetic moment, and r²C_{kq}; the selection rules, the mirrored triangle and the adjoint for negative components
change nothing. -/
theorem C37_operators (C : FieldConsts) (radial : RadKey → ℝ) (me : Method) (st : Fin N → Option QN) (hst : GoodStates st) (q : ℤ) :
    fieldOp C radial me st (.e q) = tensorMat st (fun a b => outVal (electricMultipole C.elem radial me a b 1 1)) q ∧
    fieldOp C radial me st (.b q) = tensorMat st (magSpec C radial me) q ∧
    (∀ k, 0 ≤ k → fieldOp C radial me st (.d k q) = tensorMat st
      (fun a b => 1 / (8 * C.mass) * (2 / 3 * C.elem.e * outVal (electricMultipole C.elem radial me a b 2 k))) q) ∧
    (∀ o : ℕ, fieldOp C radial me st (.ion o) = tensorMat st
      (fun a b => -C.ke * C.elem.e * outVal (electricMultipole C.elem radial me a b o o)) 0) := by
  refine ⟨?_, ?_, ?_, ?_⟩
  · exact compOp_eq st _ _ _ (fun i j a b ha hb => multipole_tensorOK C.elem radial me a b 1 1 (by norm_num) (hst i a ha).1 (hst j b hb).1
      ((hst i a ha).2 j b hb).1 ((hst i a ha).2 j b hb).2) q
  · exact compOp_eq st _ _ _ (fun i j a b ha hb => magnetic_tensorOK C radial me a b (hst i a ha).1 (hst j b hb).1
      ((hst i a ha).2 j b hb).1 ((hst i a ha).2 j b hb).2) q
  · intro k hk
    exact compOp_eq st _ _ _ (fun i j a b ha hb => dia_tensorOK C radial me a b k hk (hst i a ha).1 (hst j b hb).1
      ((hst i a ha).2 j b hb).1 ((hst i a ha).2 j b hb).2) q
  · intro o
    ext r c
    show rawIon C radial me st o r c = _
    unfold rawIon statesMat tensorMat
    cases hr : st r with
    | none => rfl
    | some a =>
      cases hc : st c with
      | none => rfl
      | some b =>
        dsimp only
        obtain ⟨pa, h⟩ := hst r a hr
        obtain ⟨e1, e2⟩ := h c b hc
        have pb := (hst c b hc).1
        have hmm : (a.m - b.m).tdiv 2 = 0 ↔ a.m - b.m = 2 * 0 := by
          unfold QN.Physical at pa pb
          constructor
          · intro h; have := tdiv_even (x := a.m - b.m) (by omega); omega
          · intro h; rw [h]; rfl
        simp only [hmm]
        by_cases hm : a.m - b.m = 2 * 0
        · rw [if_pos hm]
          by_cases hs : selMultipole a b o = true
          · rw [if_pos ⟨hm, hs⟩]; rfl
          · rw [if_neg (by tauto)]
            have z := (C20_selection_rules_sound a b o 0 (by omega)).2.1 (by simpa using hs)
            rw [electricMultipole_eq C.elem radial me a b o o pa pb e1 e2]
            have e : angularSpec o a.j b.j a.m b.m * commutesSSpec a.s o a.l b.l a.j b.j * multipoleSpec o a.l b.l
                = multipoleAngular a b o 0 := by
              unfold multipoleAngular angularSpec
              rw [show a.m - b.m = 2 * 0 by omega]
            rw [e, z]
            simp [outVal]
        · rw [if_neg hm, if_neg (by tauto)]

/-- The `break` in the E-field and B-field loops drops nothing: for a requested component the triplets are those of the loop without it. -/
theorem C37_loop_break (st : Fin N → Option QN) (range : List ℤ) (i : ℤ) (hi : i ∈ range) (C : FieldConsts) (radial : RadKey → ℝ) (me : Method) :
    rawLoop st range (fun a b => selMultipoleQ a b 1) (valE C radial me) i = rawKey st (fun a b => selMultipoleQ a b 1) (valE C radial me) i ∧
    rawLoop st range selMomentumQ (valB C radial me) i = rawKey st selMomentumQ (valB C radial me) i := by
  have gen : ∀ (sel : QN → QN → ℤ → Bool) (val : QN → QN → ℝ), (∀ a b q, sel a b q = true → a.m = b.m + 2 * q) →
      rawLoop st range sel val i = rawKey st sel val i := by
    intro sel val hs
    unfold rawLoop rawKey
    congr 1
    funext r c a b
    have key : firstHit range sel r c a b = some i ↔ ¬ ((i = 0 ∧ r < c) ∨ sel a b i = false) := by
      unfold firstHit
      constructor
      · intro h
        have := List.find?_some h
        simp only [Bool.and_eq_true, Bool.not_eq_true', Bool.and_eq_false_iff, decide_eq_false_iff_not] at this
        rintro (h1 | h1)
        · tauto
        · rw [h1] at this; simp at this
      · intro h
        have hp : (!(decide (i = 0) && decide (r < c)) && sel a b i) = true := by
          push Not at h
          have : sel a b i = true := by simpa using h.2
          simp only [this, Bool.and_true, Bool.not_eq_true', Bool.and_eq_false_iff, decide_eq_false_iff_not]
          by_cases h0 : i = 0
          · right; exact not_lt.mpr (h.1 h0)
          · left; exact h0
        cases hf : range.find? (fun i => !(decide (i = 0) && decide (r < c)) && sel a b i) with
        | none => exact absurd hp (by simpa using List.find?_eq_none.mp hf i hi)
        | some q =>
          have h2 := List.find?_some hf
          simp only [Bool.and_eq_true] at h2 hp
          have := hs a b q h2.2
          have := hs a b i hp.2
          congr 1; omega
    by_cases h : (i = 0 ∧ r < c) ∨ sel a b i = false
    · rw [if_pos h, if_neg (by rw [key]; exact not_not.mpr h)]
    · rw [if_neg h, if_pos (key.mpr h)]
  constructor
  · apply gen
    intro a b q hq
    simp only [selMultipoleQ, Bool.and_eq_true, decide_eq_true_eq] at hq
    exact hq.1.1.2
  · apply gen
    intro a b q hq
    simp only [selMomentumQ, Bool.and_eq_true, decide_eq_true_eq] at hq
    exact hq.1.2

/-- Both components are requested and the first state pair hits component 1 after 0 was rejected. -/
example : firstHit (N := 2) [0, 1] (fun a b => selMultipoleQ a b 1) 0 1 qnP qnS = some 1 := by decide

/-! ### Norms -/

theorem norm_sph (v : Vec3) : ‖sph v (-1)‖ = ‖sph v 1‖ := by
  rw [sph_minus, norm_neg, Complex.norm_conj]

theorem big_sph (v : Vec3) : isBig (sph v (-1)) = isBig (sph v 1) := by unfold isBig; rw [norm_sph]

theorem dia_conj (B : Vec3) :
    (starRingEnd ℂ) (diaTerm B 0 0) = diaTerm B 0 0 ∧ (starRingEnd ℂ) (diaTerm B 2 0) = diaTerm B 2 0 ∧
    diaTerm B 2 (-1) = -(starRingEnd ℂ) (diaTerm B 2 1) ∧ diaTerm B 2 (-2) = (starRingEnd ℂ) (diaTerm B 2 2) := by
  have h0 := sph_zero_conj B
  have h1 := sph_minus B
  refine ⟨?_, ?_, ?_, ?_⟩
  · simp only [diaTerm]
    norm_num
    rw [h0, h1]; simp [Complex.conj_ofNat]; ring
  · simp only [diaTerm]
    norm_num
    rw [h0, h1]; simp; ring
  · simp only [diaTerm]
    norm_num
    rw [h0, h1]; simp
  · simp only [diaTerm]
    norm_num
    rw [h1]; simp

theorem big_dia (B : Vec3) : isBig (diaTerm B 2 (-1)) = isBig (diaTerm B 2 1) ∧ isBig (diaTerm B 2 (-2)) = isBig (diaTerm B 2 2) := by
  obtain ⟨-, -, h1, h2⟩ := dia_conj B
  unfold isBig
  rw [h1, h2, norm_neg, Complex.norm_conj, Complex.norm_conj]
  exact ⟨rfl, rfl⟩

/-! ## C70 every operator that is read was created -/

/-- **C70.** For all parameter values: every operator that `addInteraction` reads is created by `initializeInteraction` for the same
parameters. -/
theorem C70_operators_initialised (p : FieldParams) : ∀ key ∈ addKeys p, key ∈ initKeys p := by
  intro key hk
  have e1 := big_sph p.E
  have b1 := big_sph p.B
  obtain ⟨d1, d2⟩ := big_dia p.B
  unfold addKeys at hk
  simp only [List.mem_append] at hk
  unfold initKeys fieldRange diaRange ionRange
  simp only [List.mem_append, List.mem_flatMap, List.mem_filter]
  have rng : ∀ q : ℤ, q = 0 ∨ q = 1 → q ∈ ([0, 1] : List ℤ) := by intro q h; simpa using h
  rcases hk with ((((((hk | hk) | hk) | hk) | hk) | hk) | hk) | hk
  · split_ifs at hk with h
    · simp at hk; subst hk
      left; left; left; exact ⟨0, ⟨by simp, h⟩, by simp⟩
    · cases hk
  · split_ifs at hk with h
    · simp at hk; subst hk
      left; left; left; exact ⟨1, ⟨by simp, by rw [← e1]; exact h⟩, by simp⟩
    · cases hk
  · split_ifs at hk with h
    · simp at hk; subst hk
      left; left; left; exact ⟨1, ⟨by simp, h⟩, by simp⟩
    · cases hk
  · split_ifs at hk with h
    · simp at hk; subst hk
      left; left; right; exact ⟨0, ⟨by simp, h⟩, by simp⟩
    · cases hk
  · split_ifs at hk with h
    · simp at hk; subst hk
      left; left; right; exact ⟨1, ⟨by simp, by rw [← b1]; exact h⟩, by simp⟩
    · cases hk
  · split_ifs at hk with h
    · simp at hk; subst hk
      left; left; right; exact ⟨1, ⟨by simp, h⟩, by simp⟩
    · cases hk
  · left; right
    simp only [List.mem_map, List.mem_filter, List.mem_cons, List.not_mem_nil, or_false, Prod.exists] at hk
    obtain ⟨k, q, ⟨hm, hb⟩, rfl⟩ := hk
    simp only [Prod.mk.injEq] at hm
    rcases hm with ⟨rfl, rfl⟩ | ⟨rfl, rfl⟩ | ⟨rfl, rfl⟩ | ⟨rfl, rfl⟩ | ⟨rfl, rfl⟩ | ⟨rfl, rfl⟩
    · exact ⟨(0, 0), ⟨by simp, hb⟩, by simp⟩
    · exact ⟨(2, 0), ⟨by simp, hb⟩, by simp⟩
    · exact ⟨(2, 1), ⟨by simp, hb⟩, by simp⟩
    · exact ⟨(2, 1), ⟨by simp, by rw [d1] at hb; exact hb⟩, by simp⟩
    · exact ⟨(2, 2), ⟨by simp, hb⟩, by simp⟩
    · exact ⟨(2, 2), ⟨by simp, by rw [d2] at hb; exact hb⟩, by simp⟩
  · right
    split_ifs at hk with h
    · rw [if_pos h.1]; exact hk
    · cases hk

/-- A parameter value that reads operators of all four kinds. -/
example : ∃ p : FieldParams, FKey.e (-1) ∈ addKeys p ∧ FKey.b 0 ∈ addKeys p ∧ FKey.d 0 0 ∈ addKeys p ∧ FKey.ion 2 ∈ addKeys p := by
  have norm1 : ‖(1 : ℂ)‖ = 1 := by simpa using Complex.norm_natCast 1
  have n0 : isBig ⟨1, 0⟩ = true := by
    have : (⟨1, 0⟩ : ℂ) = 1 := rfl
    rw [this]; unfold isBig; rw [decide_eq_true_eq, norm1]; norm_num
  have n1 : isBig (sph ⟨Real.sqrt 2, 0, 0⟩ 1) = true := by
    have : sph ⟨Real.sqrt 2, 0, 0⟩ 1 = -1 := by
      unfold sph; norm_num; apply Complex.ext <;> simp [neg_div, fsqrt2_ne]
    rw [this]; unfold isBig; rw [decide_eq_true_eq, norm_neg, norm1]; norm_num
  have n2 : isBig (diaTerm ⟨0, 0, 1⟩ 0 0) = true := by
    have : diaTerm ⟨0, 0, 1⟩ 0 0 = 1 := by
      unfold diaTerm sph; norm_num
      apply Complex.ext <;> simp
    rw [this]; unfold isBig; rw [decide_eq_true_eq, norm1]; norm_num
  have n3 : isBig (sph ⟨0, 0, 1⟩ 0) = true := by
    have : sph ⟨0, 0, 1⟩ 0 = ⟨1, 0⟩ := by unfold sph; norm_num
    rw [this]; exact n0
  refine ⟨⟨⟨Real.sqrt 2, 0, 0⟩, ⟨0, 0, 1⟩, true, 1, 2, some 5⟩, ?_, ?_, ?_, ?_⟩ <;> unfold addKeys <;> simp [n1, n2, n3, List.mem_filter]

/-! ### Hermiticity -/

theorem lowerView_herm (M : Matrix (Fin N) (Fin N) ℂ) : (lowerView M)ᴴ = lowerView M := by
  ext r c
  rw [Matrix.conjTranspose_apply]
  unfold lowerView
  rcases lt_trichotomy r c with h | h | h
  · rw [if_pos h, if_neg (by omega), if_neg (by omega)]; rfl
  · subst h; simp
  · rw [if_neg (by omega), if_neg (by omega), if_pos h]; simp

theorem compOp_zero_herm (raw : ℤ → Matrix (Fin N) (Fin N) ℂ) : (compOp raw 0)ᴴ = compOp raw 0 := by
  unfold compOp; rw [if_pos rfl]; exact lowerView_herm _

theorem compOp_neg (raw : ℤ → Matrix (Fin N) (Fin N) ℂ) (q : ℤ) (hq : 0 < q) :
    compOp raw (-q) = ((-1 : ℂ) ^ q.natAbs) • (compOp raw q)ᴴ := by
  unfold compOp
  rw [if_neg (by omega), if_neg (by omega), if_neg (by omega), if_pos hq, Int.natAbs_neg, neg_neg]

theorem sandwich_herm (P A : Matrix (Fin N) (Fin N) ℂ) (hP : P.IsHermitian) (c : ℂ) (hA : (c • A).IsHermitian) :
    (c • (P * A * P)).IsHermitian := by
  have : c • (P * A * P) = P * (c • A) * P := by simp
  rw [this]
  unfold Matrix.IsHermitian at *
  rw [Matrix.conjTranspose_mul, Matrix.conjTranspose_mul, hP, hA, Matrix.mul_assoc]

theorem sandwich_pair (P A A' : Matrix (Fin N) (Fin N) ℂ) (hP : P.IsHermitian) (c c' : ℂ) (hA : (c • A)ᴴ = c' • A') :
    (c • (P * A * P) + c' • (P * A' * P)).IsHermitian := by
  have e1 : c • (P * A * P) = P * (c • A) * P := by simp
  have e2 : c' • (P * A' * P) = P * (c' • A') * P := by simp
  rw [e1, e2, ← hA]
  unfold Matrix.IsHermitian at *
  rw [Matrix.conjTranspose_add, Matrix.conjTranspose_mul, Matrix.conjTranspose_mul, Matrix.conjTranspose_mul, Matrix.conjTranspose_mul, hP,
    Matrix.conjTranspose_conjTranspose, add_comm, Matrix.mul_assoc, Matrix.mul_assoc]

theorem ion_herm (C : FieldConsts) (radial : RadKey → ℝ) (me : Method) (st : Fin N → Option QN) (hst : GoodStates st) (o : ℕ) :
    (fieldOp C radial me st (.ion o))ᴴ = fieldOp C radial me st (.ion o) := by
  rw [((C37_operators C radial me st hst 0).2.2.2) o]
  ext r c
  rw [Matrix.conjTranspose_apply]
  unfold tensorMat
  cases hr : st r with
  | none => cases st c <;> simp
  | some a =>
    cases hc : st c with
    | none => simp
    | some b =>
      obtain ⟨pa, h⟩ := hst r a hr
      obtain ⟨e1, e2⟩ := h c b hc
      have pb := (hst c b hc).1
      have t := (multipole_tensorOK C.elem radial me a b o o (by omega) pa pb e1 e2).herm
      dsimp only
      rw [t]
      by_cases hm : a.m - b.m = 2 * 0
      · rw [if_pos hm, if_pos (by omega), hm]
        have : (2 * 0 / 2 : ℤ) = 0 := by norm_num
        rw [this, sgn_zero, one_mul, Complex.star_def, Complex.conj_ofReal]
      · rw [if_neg hm, if_neg (by omega)]; simp

theorem list_sum_herm (L : List (Matrix (Fin N) (Fin N) ℂ)) (h : ∀ A ∈ L, A.IsHermitian) : L.sum.IsHermitian := by
  induction L with
  | nil => simp [Matrix.IsHermitian]
  | cons A L ih =>
    rw [List.sum_cons]
    exact (h A (by simp)).add (ih fun B hB => h B (by simp [hB]))

theorem filter_map_sum' {α : Type} (L : List α) (f : α → Bool) (g : α → Matrix (Fin N) (Fin N) ℂ) :
    ((L.filter f).map g).sum = (L.map fun x => if f x = true then g x else 0).sum := by
  induction L with
  | nil => rfl
  | cons a L ih =>
    rw [List.filter_cons]
    cases h : f a <;> simp [h, ih]

theorem zero_herm' : (0 : Matrix (Fin N) (Fin N) ℂ).IsHermitian := by simp [Matrix.IsHermitian]

/-- **C37.** For all fields, ion settings and bases: with Hermitian unperturbed operator the Hamiltonian with interaction is Hermitian. -/
theorem C37_hermitian (C : FieldConsts) (radial : RadKey → ℝ) (me : Method) (st : Fin N → Option QN) (hst : GoodStates st)
    (op0 P : Matrix (Fin N) (Fin N) ℂ) (h0 : op0.IsHermitian) (hP : P.IsHermitian) (p : FieldParams) :
    (freshOper (fieldInter C radial me st) op0 P p).IsHermitian := by
  unfold freshOper
  refine h0.add ?_
  show (List.map (fun key => addCoef p key • (P * fieldOp C radial me st key * P)) (addKeys p)).sum.IsHermitian
  set T := fun key => addCoef p key • (P * fieldOp C radial me st key * P) with hT
  have sph0 : ∀ v : Vec3, (starRingEnd ℂ) (-sph v 0) = -sph v 0 := by intro v; rw [map_neg, sph_zero_conj]
  have he0 : (T (.e 0)).IsHermitian := by
    apply sandwich_herm _ _ hP
    unfold Matrix.IsHermitian
    rw [Matrix.conjTranspose_smul]
    have : (fieldOp C radial me st (.e 0))ᴴ = fieldOp C radial me st (.e 0) := compOp_zero_herm _
    rw [this]
    congr 1
    exact sph0 p.E
  have hb0 : (T (.b 0)).IsHermitian := by
    apply sandwich_herm _ _ hP
    unfold Matrix.IsHermitian
    rw [Matrix.conjTranspose_smul]
    have : (fieldOp C radial me st (.b 0))ᴴ = fieldOp C radial me st (.b 0) := compOp_zero_herm _
    rw [this]
    congr 1
    exact sph0 p.B
  have hd0 : (T (.d 0 0)).IsHermitian ∧ (T (.d 2 0)).IsHermitian := by
    constructor
    · apply sandwich_herm _ _ hP
      unfold Matrix.IsHermitian
      rw [Matrix.conjTranspose_smul]
      have : (fieldOp C radial me st (.d 0 0))ᴴ = fieldOp C radial me st (.d 0 0) := compOp_zero_herm _
      rw [this]
      congr 1
      exact (dia_conj p.B).1
    · apply sandwich_herm _ _ hP
      unfold Matrix.IsHermitian
      rw [Matrix.conjTranspose_smul]
      have : (fieldOp C radial me st (.d 2 0))ᴴ = fieldOp C radial me st (.d 2 0) := compOp_zero_herm _
      rw [this]
      congr 1
      show (starRingEnd ℂ) (-diaTerm p.B 2 0) = -diaTerm p.B 2 0
      rw [map_neg, (dia_conj p.B).2.1]
  have he1 : (T (.e 1) + T (.e (-1))).IsHermitian := by
    apply sandwich_pair _ _ _ hP
    have : fieldOp C radial me st (.e (-1)) = (-1 : ℂ) • (fieldOp C radial me st (.e 1))ᴴ := by
      have := compOp_neg (rawKey st (fun a b => selMultipoleQ a b 1) (valE C radial me)) 1 (by norm_num)
      rw [show ((-1 : ℂ) ^ (1 : ℤ).natAbs) = -1 by simp] at this
      exact this
    rw [this, Matrix.conjTranspose_smul, smul_smul]
    congr 1
    show (starRingEnd ℂ) (sph p.E (-1)) = sph p.E 1 * -1
    rw [sph_minus]; simp
  have hb1 : (T (.b 1) + T (.b (-1))).IsHermitian := by
    apply sandwich_pair _ _ _ hP
    have : fieldOp C radial me st (.b (-1)) = (-1 : ℂ) • (fieldOp C radial me st (.b 1))ᴴ := by
      have := compOp_neg (rawKey st selMomentumQ (valB C radial me)) 1 (by norm_num)
      rw [show ((-1 : ℂ) ^ (1 : ℤ).natAbs) = -1 by simp] at this
      exact this
    rw [this, Matrix.conjTranspose_smul, smul_smul]
    congr 1
    show (starRingEnd ℂ) (sph p.B (-1)) = sph p.B 1 * -1
    rw [sph_minus]; simp
  have hd1 : (T (.d 2 1) + T (.d 2 (-1))).IsHermitian := by
    apply sandwich_pair _ _ _ hP
    have : fieldOp C radial me st (.d 2 (-1)) = (-1 : ℂ) • (fieldOp C radial me st (.d 2 1))ᴴ := by
      have := compOp_neg (rawKey st (fun a b => selMultipoleQ a b 2) (valD C radial me 2)) 1 (by norm_num)
      rw [show ((-1 : ℂ) ^ (1 : ℤ).natAbs) = -1 by simp] at this
      exact this
    rw [this, Matrix.conjTranspose_smul, smul_smul]
    congr 1
    have hc := (dia_conj p.B).2.2.1
    simp [addCoef, hc]
  have hd2 : (T (.d 2 2) + T (.d 2 (-2))).IsHermitian := by
    apply sandwich_pair _ _ _ hP
    have : fieldOp C radial me st (.d 2 (-2)) = (1 : ℂ) • (fieldOp C radial me st (.d 2 2))ᴴ := by
      have := compOp_neg (rawKey st (fun a b => selMultipoleQ a b 2) (valD C radial me 2)) 2 (by norm_num)
      rw [show ((-1 : ℂ) ^ (2 : ℤ).natAbs) = 1 by simp] at this
      exact this
    rw [this, Matrix.conjTranspose_smul, smul_smul]
    congr 1
    have hc := (dia_conj p.B).2.2.2
    simp [addCoef, hc]
  have hion : ∀ o, (T (.ion o)).IsHermitian := by
    intro o
    apply sandwich_herm _ _ hP
    unfold Matrix.IsHermitian
    rw [Matrix.conjTranspose_smul, ion_herm C radial me st hst]
    congr 1
    simp [addCoef]
  have e1 := big_sph p.E
  have b1 := big_sph p.B
  obtain ⟨d1, d2⟩ := big_dia p.B
  unfold addKeys
  simp only [List.map_append, List.sum_append]
  rw [e1, b1]
  refine Matrix.IsHermitian.add (Matrix.IsHermitian.add ?_ ?_) ?_
  · have grp : ∀ (x y z : Bool) (A B C : FKey) (hA : (T A).IsHermitian) (hB : (T B + T C).IsHermitian),
        ((List.map T (if x = true then [A] else [])).sum + ((List.map T (if y = true then [B] else [])).sum +
          (List.map T (if y = true then [C] else [])).sum)).IsHermitian := by
      intro x y z A B C hA hB
      have z := zero_herm' (N := N)
      cases x <;> cases y <;> simp [hA, hB, hA.add hB]
    have g1 := grp (isBig (sph p.E 0)) (isBig (sph p.E 1)) true _ _ _ he0 he1
    have g2 := grp (isBig (sph p.B 0)) (isBig (sph p.B 1)) true _ _ _ hb0 hb1
    have := g1.add g2
    simpa only [add_assoc] using this
  · rw [List.map_map, filter_map_sum']
    simp only [List.map_cons, List.map_nil, List.sum_cons, List.sum_nil, add_zero, d1, d2, Function.comp_apply]
    have one : ∀ (x : Bool) (A : Matrix (Fin N) (Fin N) ℂ), A.IsHermitian → (if x = true then A else 0).IsHermitian := by
      intro x A hA
      cases x
      · exact zero_herm'
      · exact hA
    have two : ∀ (x : Bool) (A B : Matrix (Fin N) (Fin N) ℂ), (A + B).IsHermitian →
        ((if x = true then A else 0) + (if x = true then B else 0)).IsHermitian := by
      intro x A B hA
      cases x
      · simpa using zero_herm'
      · exact hA
    have := (one (p.dia && isBig (diaTerm p.B 0 0)) _ hd0.1).add ((one (p.dia && isBig (diaTerm p.B 2 0)) _ hd0.2).add
      ((two (p.dia && isBig (diaTerm p.B 2 1)) _ _ hd1).add (two (p.dia && isBig (diaTerm p.B 2 2)) _ _ hd2)))
    rw [add_assoc (ite _ _ _) (ite _ _ _) (_ + _)] at this
    exact this
  · split_ifs with h
    · apply list_sum_herm
      intro A hA
      simp only [List.map_map, List.mem_map, Function.comp_apply] at hA
      obtain ⟨o, -, rfl⟩ := hA
      exact hion _
    · simpa using zero_herm'

/-! ### The Hamiltonian in Cartesian form -/

/-- Specification: the scalar product of a vector with a vector operator given by its spherical components: x = (T₋₁ − T₁)/√2, y = i(T₋₁ + T₁)/√2, z = T₀. -/
noncomputable def dotOp (v : Vec3) (T : ℤ → Matrix (Fin N) (Fin N) ℂ) : Matrix (Fin N) (Fin N) ℂ :=
  ((v.x / Real.sqrt 2 : ℝ) : ℂ) • (T (-1) - T 1) + (Complex.I * ((v.y / Real.sqrt 2 : ℝ) : ℂ)) • (T (-1) + T 1) + (v.z : ℂ) • T 0

/-- No field component or diamagnetic term is non-zero but below the tolerance of 1e-24. -/
def NoTiny (p : FieldParams) : Prop :=
  (∀ q, sph p.E q = 0 ∨ isBig (sph p.E q) = true) ∧ (∀ q, sph p.B q = 0 ∨ isBig (sph p.B q) = true) ∧
  ∀ k q, diaTerm p.B k q = 0 ∨ isBig (diaTerm p.B k q) = true

theorem dotOp_eq (v : Vec3) (T : ℤ → Matrix (Fin N) (Fin N) ℂ) :
    dotOp v T = sph v 0 • T 0 - sph v (-1) • T 1 - sph v 1 • T (-1) := by
  unfold dotOp
  have e1 : sph v 1 = -((v.x / Real.sqrt 2 : ℝ) : ℂ) - Complex.I * ((v.y / Real.sqrt 2 : ℝ) : ℂ) := by
    unfold sph; norm_num
    apply Complex.ext <;> simp [neg_div]
  have em : sph v (-1) = ((v.x / Real.sqrt 2 : ℝ) : ℂ) - Complex.I * ((v.y / Real.sqrt 2 : ℝ) : ℂ) := by
    unfold sph; norm_num
    apply Complex.ext <;> simp [neg_div]
  have e0 : sph v 0 = (v.z : ℂ) := by rw [sph_eq_spec]; simp [sphSpec]
  rw [e1, em, e0]
  module

/-- The electric dipole operator. -/
noncomputable def dipoleT (C : FieldConsts) (radial : RadKey → ℝ) (me : Method) (st : Fin N → Option QN) : ℤ → Matrix (Fin N) (Fin N) ℂ :=
  tensorMat st fun a b => outVal (electricMultipole C.elem radial me a b 1 1)

/-- The magnetic moment. -/
noncomputable def magneticT (C : FieldConsts) (radial : RadKey → ℝ) (me : Method) (st : Fin N → Option QN) : ℤ → Matrix (Fin N) (Fin N) ℂ :=
  tensorMat st (magSpec C radial me)

/-- e²/(8 m) · 2/3 · r²C_{kq}. -/
noncomputable def diaT (C : FieldConsts) (radial : RadKey → ℝ) (me : Method) (st : Fin N → Option QN) (k : ℤ) : ℤ → Matrix (Fin N) (Fin N) ℂ :=
  tensorMat st fun a b => 1 / (8 * C.mass) * (2 / 3 * C.elem.e * outVal (electricMultipole C.elem radial me a b 2 k))

/-- −k e Q_{o0}. -/
noncomputable def ionT (C : FieldConsts) (radial : RadKey → ℝ) (me : Method) (st : Fin N → Option QN) (o : ℕ) : Matrix (Fin N) (Fin N) ℂ :=
  tensorMat st (fun a b => -C.ke * C.elem.e * outVal (electricMultipole C.elem radial me a b o o)) 0

theorem dia_coef_zero (p : FieldParams) (i : ℤ × ℤ) (hi : i ∈ diaKeys) (h : diaTerm p.B i.1 i.2 = 0) : addCoef p (.d i.1 i.2) = 0 := by
  simp only [diaKeys, List.mem_cons, List.not_mem_nil, or_false] at hi
  rcases hi with rfl | rfl | rfl | rfl | rfl | rfl <;> simp_all [addCoef]

/-- **C37 (operator form).** For all parameters (without components in (0, 1e-24]) and all states, the operator that a SystemOne represents is
H₀ + P (−E·d − B·μ + diamagnetic sum (see C38) + Σ_{1≤o≤order} charge·R^{−(o+1)}·(−k e Q_{o0})) P, P the projector onto the basis. -/
theorem C37_physical_operator (C : FieldConsts) (radial : RadKey → ℝ) (me : Method) (st : Fin N → Option QN) (hst : GoodStates st)
    (op0 P : Matrix (Fin N) (Fin N) ℂ) (p : FieldParams) (hp : NoTiny p) :
    freshOper (fieldInter C radial me st) op0 P p = op0 + P * (
      - dotOp p.E (dipoleT C radial me st) - dotOp p.B (magneticT C radial me st)
      + (if p.dia then (diaKeys.map fun i => addCoef p (.d i.1 i.2) • diaT C radial me st i.1 i.2).sum else 0)
      + (match p.dist with
          | some R => (p.charge : ℂ) • ((List.range p.order).map fun o => ((1 / R ^ (o + 2) : ℝ) : ℂ) • ionT C radial me st (o + 1)).sum
          | none => 0)) * P := by
  obtain ⟨hE, hB, hD⟩ := hp
  unfold freshOper
  congr 1
  show (List.map (fun key => addCoef p key • (P * fieldOp C radial me st key * P)) (addKeys p)).sum = _
  have pull : ∀ L : List FKey, (List.map (fun key => addCoef p key • (P * fieldOp C radial me st key * P)) L).sum
      = P * (List.map (fun key => addCoef p key • fieldOp C radial me st key) L).sum * P := by
    intro L
    induction L with
    | nil => simp
    | cons a L ih => rw [List.map_cons, List.sum_cons, ih, List.map_cons, List.sum_cons, Matrix.mul_add, Matrix.add_mul]; simp
  rw [pull]
  congr 2
  set T := fun key => addCoef p key • fieldOp C radial me st key with hT
  have one : ∀ (x : ℂ) (key : FKey), (x = 0 ∨ isBig x = true) → (x = 0 → addCoef p key = 0) →
      (List.map T (if isBig x = true then [key] else [])).sum = T key := by
    intro x key h1 h2
    by_cases hb : isBig x = true
    · rw [if_pos hb]; simp
    · rw [if_neg hb]
      have := h2 (by tauto)
      simp [hT, this]
  unfold addKeys
  simp only [List.map_append, List.sum_append]
  rw [one _ (.e 0) (hE 0) (by intro h; simp [addCoef, h]), one _ (.e 1) (hE (-1)) (by intro h; simp [addCoef, h]),
    one _ (.e (-1)) (hE 1) (by intro h; simp [addCoef, h]), one _ (.b 0) (hB 0) (by intro h; simp [addCoef, h]),
    one _ (.b 1) (hB (-1)) (by intro h; simp [addCoef, h]), one _ (.b (-1)) (hB 1) (by intro h; simp [addCoef, h])]
  congr 1
  · congr 1
    · rw [dotOp_eq, dotOp_eq]
      simp only [hT, (C37_operators C radial me st hst _).1, (C37_operators C radial me st hst _).2.1, addCoef]
      norm_num
      unfold dipoleT magneticT
      module
    · rw [List.map_map, filter_map_sum']
      cases hd : p.dia with
      | false => simp
      | true =>
        simp only [Bool.true_and, if_true]
        show (List.map _ diaKeys).sum = _
        congr 1
        apply List.map_congr_left
        intro i hi
        have hk : 0 ≤ i.1 := by
          simp only [diaKeys, List.mem_cons, List.not_mem_nil, or_false] at hi
          rcases hi with rfl | rfl | rfl | rfl | rfl | rfl <;> norm_num
        have e : fieldOp C radial me st (.d i.1 i.2) = diaT C radial me st i.1 i.2 := (C37_operators C radial me st hst i.2).2.2.1 i.1 hk
        rw [← e]
        by_cases hb : isBig (diaTerm p.B i.1 i.2) = true
        · rw [if_pos hb]; rfl
        · rw [if_neg hb, dia_coef_zero p i hi (by have := hD i.1 i.2; tauto), zero_smul]
  · cases hR : p.dist with
    | none => simp
    | some R =>
      dsimp only
      by_cases hc : p.charge = 0
      · simp [hc]
      · rw [if_pos ⟨hc, rfl⟩, List.map_map, List.map_map, List.smul_sum, List.map_map]
        congr 1
        apply List.map_congr_left
        intro o _
        have e := (C37_operators C radial me st hst 0).2.2.2 (o + 1)
        simp only [Function.comp_apply, hT]
        rw [e, smul_smul]
        simp only [addCoef, hR]
        rfl

/-- Hypotheses are met: two rubidium states in a field of strength √2 along x. -/
example : GoodStates (N := 2) (fun i => if i = 0 then some qnS else some qnP) ∧ NoTiny ⟨⟨0, 0, 1⟩, ⟨0, 0, 0⟩, true, 1, 2, some 5⟩ := by
  constructor
  · intro i a ha
    have hcase : ∀ i : Fin 2, ∀ a, (if i = 0 then some qnS else some qnP) = some a → a = qnS ∨ a = qnP := by
      intro i a h; split_ifs at h
      · left; exact (Option.some.inj h).symm
      · right; exact (Option.some.inj h).symm
    have phys : ∀ a, a = qnS ∨ a = qnP → a.Physical ∧ a.species = "Rb" ∧ a.s = 1 := by
      rintro a (rfl | rfl)
      · refine ⟨?_, rfl, rfl⟩; unfold QN.Physical; decide
      · refine ⟨?_, rfl, rfl⟩; unfold QN.Physical; decide
    obtain ⟨h1, h2, h3⟩ := phys a (hcase i a ha)
    refine ⟨h1, ?_⟩
    intro j b hb
    obtain ⟨-, h4, h5⟩ := phys b (hcase j b hb)
    rw [h2, h3, h4, h5]; exact ⟨rfl, rfl⟩
  · have z : ∀ q, sph ⟨0, 0, 0⟩ q = 0 := by
      intro q; unfold sph; split_ifs <;> first | rfl | (apply Complex.ext <;> simp)
    refine ⟨?_, fun q => Or.inl (z q), ?_⟩
    · intro q
      by_cases h : q = 0
      · right
        subst h
        have : sph ⟨0, 0, 1⟩ 0 = 1 := by unfold sph; norm_num; rfl
        rw [this]; unfold isBig; rw [decide_eq_true_eq]
        have norm1 : ‖(1 : ℂ)‖ = 1 := by simpa using Complex.norm_natCast 1
        rw [norm1]; norm_num
      · left
        unfold sph; split_ifs <;> first | rfl | (apply Complex.ext <;> simp)
    · intro k q
      left
      unfold diaTerm
      simp [z]

/-! ## C35 for SystemOne -/

/-- **C35 for SystemOne.** For every history of setters (fields, diamagnetism, ion), builds and diagonalizations of a fresh SystemOne the represented operator is
the Hermitian one for the current parameters. -/
theorem C35_system_one (C : FieldConsts) (radial : RadKey → ℝ) (me : Method) (st : Fin N → Option QN) (hst : GoodStates st)
    {k : Type} [Fintype k] [DecidableEq k] (s0 s : CSys FieldParams FKey (Fin N) k)
    (h0 : s0.Fresh (fieldInter C radial me st)) (hH : s0.H.IsHermitian) (hs : Hist (fieldInter C radial me st) s0 s) :
    ∃ s', s.build (fieldInter C radial me st) = .ok s' ∧ s'.p = s.p ∧
      s'.V * s'.H * s'.Vᴴ = freshOper (fieldInter C radial me st) (s0.V * s0.H * s0.Vᴴ) (s0.V * s0.Vᴴ) s.p ∧
      (s'.V * s'.H * s'.Vᴴ).IsHermitian := by
  obtain ⟨⟨s', h1, h2, h3⟩, -⟩ := C35_current_parameters_partial _ s0 s h0 hs
  refine ⟨s', h1, h2, h3, ?_⟩
  rw [h3]
  apply C37_hermitian C radial me st hst
  · unfold Matrix.IsHermitian at *
    rw [Matrix.conjTranspose_mul, Matrix.conjTranspose_mul, hH, Matrix.conjTranspose_conjTranspose, Matrix.mul_assoc]
  · unfold Matrix.IsHermitian
    rw [Matrix.conjTranspose_mul, Matrix.conjTranspose_conjTranspose]

/-- A fresh system: parameters of a new SystemOne need no operator. -/
example (C : FieldConsts) (radial : RadKey → ℝ) (me : Method) (st : Fin 2 → Option QN) :
    CSys.Fresh (fieldInter C radial me st)
      ⟨⟨⟨0, 0, 0⟩, ⟨0, 0, 0⟩, true, 0, 0, none⟩, (1 : Matrix (Fin 2) (Fin 2) ℂ), 1, none, none, fun _ => none, false, false, false, false⟩ := by
  refine ⟨rfl, rfl, fun _ => rfl, rfl, rfl, rfl, ?_, by simp⟩
  have z : ∀ q, sph ⟨0, 0, 0⟩ q = 0 := by
    intro q; unfold sph; split_ifs <;> first | rfl | (apply Complex.ext <;> simp)
  have zb : isBig 0 = false := by unfold isBig; simp; norm_num
  have zd : ∀ k q, diaTerm ⟨0, 0, 0⟩ k q = 0 := by intro k q; unfold diaTerm; simp [z]
  show addKeys _ = []
  unfold addKeys
  simp [z, zd, zb]

/-! ## C40 -/

/-- The setter sequence on a real-type system; rejected calls are caught by the caller. -/
noncomputable def RealField.run (s : RealField) : List Vec3 → RealField
  | [] => s
  | v :: L => RealField.run (s.set v).2 L

/-- **C40 (partial).** For every history of field setters of the real type, rejected ones included: the spherical components, which are all that the Hamiltonian uses, are those of
the last accepted field (or the initial ones).  Missing: the stored Cartesian field is overwritten by the rejected one (`C40_rejected_field_fails`). -/
theorem C40_components_partial (s : RealField) (L : List Vec3) :
    (∀ v ∈ L, v.y ≠ 0) ∧ (s.run L).comp = s.comp ∨
    ∃ v ∈ L, v.y = 0 ∧ (∃ L1 L2, L = L1 ++ v :: L2 ∧ ∀ w ∈ L2, w.y ≠ 0) ∧ ∀ q, sphReal v q = .ok ((s.run L).comp q) := by
  induction L generalizing s with
  | nil => left; simp [RealField.run]
  | cons v L ih =>
    have ih' := ih (s.set v).2
    rcases ih' with ⟨h1, h2⟩ | ⟨w, hw, h1, ⟨L1, L2, e, h2⟩, h3⟩
    · by_cases hv : v.y = 0
      · right
        refine ⟨v, by simp, hv, ⟨[], L, rfl, h1⟩, ?_⟩
        intro q
        show _ = Out.ok (((s.set v).2.run L).comp q)
        rw [h2]
        unfold RealField.set sphReal
        simp [hv]
      · left
        refine ⟨by intro w hw; rcases List.mem_cons.mp hw with rfl | h; exacts [hv, h1 w h], ?_⟩
        show ((s.set v).2.run L).comp = _
        rw [h2]
        unfold RealField.set
        simp [hv]
    · right
      exact ⟨w, by simp [hw], h1, ⟨v :: L1, L2, by rw [e]; rfl, h2⟩, h3⟩

/-- **C40 fails:** after a rejected call the stored Cartesian field — which `add()` compares with that of another system (SystemOne.cpp:725-735) — is the
rejected one, although the components in use are the old ones; and the Hamiltonian is marked for rebuilding. -/
theorem C40_rejected_field_fails : ∃ (s : RealField) (v : Vec3), (s.set v).1 = .throw ∧ (s.set v).2.field ≠ s.field ∧
    (s.set v).2.comp = s.comp ∧ s.needNew = false ∧ (s.set v).2.needNew = true := by
  refine ⟨⟨⟨0, 0, 1⟩, fun q => if q = 0 then 1 else 0, false⟩, ⟨0, 1, 0⟩, ?_, ?_, ?_, rfl, ?_⟩ <;> simp [RealField.set]

end PI
