import Verif.Rot.FieldCov
import Verif.Rot.PairState
import Verif.Pair.Settings
import Verif.Pair.Multi

/-!
# C81: the interaction of two atoms along a rotated axis
-/

namespace PI

open Matrix

variable {N : ℕ}

/-! ## Conjugation with the rotator of pairs -/

/-- The elements of one atom conjugated with the spin rotation. -/
noncomputable def rotElt (g : M2) (F : QN → QN → ℂ) (a b : QN) : ℂ :=
  ∑ la ∈ Finset.range (a.j.toNat + 1), ∑ lb ∈ Finset.range (b.j.toNat + 1),
    g.sym a.j.toNat a.idx la * F { a with m := a.j - 2 * la } { b with m := b.j - 2 * lb } * (starRingEnd ℂ) (g.sym b.j.toNat b.idx lb)

/-- The full matrix of elements between pair states. -/
noncomputable def fullPairs (st : Fin N → Option (QN × QN)) (F : QN × QN → QN × QN → ℂ) : Matrix (Fin N) (Fin N) ℂ := fun r c =>
  match st r, st c with
  | some a, some b => F a b
  | _, _ => 0

theorem fullPairs_apply (st : Fin N → Option (QN × QN)) (F : QN × QN → QN × QN → ℂ) {r c : Fin N} {a b : QN × QN} (ha : st r = some a) (hb : st c = some b) :
    fullPairs st F r c = F a b := by unfold fullPairs; rw [ha, hb]

theorem rotSymPairs_sum_left (st : Fin N → Option (QN × QN)) (hst : RotPairs st) (hz : AllZeemanPairs st) (g : M2) (r : Fin N) (a : QN × QN)
    (ha : st r = some a) (X : Fin N → ℂ) (G : QN × QN → ℂ) (hX : ∀ k d, st k = some d → X k = G d) :
    ∑ k, rotSymPairs st g r k * X k = ∑ p ∈ Finset.range (a.1.j.toNat + 1) ×ˢ Finset.range (a.2.j.toNat + 1),
      g.sym a.1.j.toNat a.1.idx p.1 * g.sym a.2.j.toNat a.2.idx p.2 * G ({ a.1 with m := a.1.j - 2 * p.1 }, { a.2 with m := a.2.j - 2 * p.2 }) := by
  have h := sum_multiplet_pair st hst hz r a ha fun d => g.sym a.1.j.toNat a.1.idx d.1.idx * g.sym a.2.j.toNat a.2.idx d.2.idx * G d
  simp only [idx_level] at h
  rw [← h]
  refine Finset.sum_congr rfl fun k _ => ?_
  unfold rotSymPairs
  rw [ha]
  cases hk : st k with
  | none => simp
  | some d =>
    dsimp only
    rw [hX k d hk]
    by_cases h1 : d.1 = { a.1 with m := d.1.m }
    · have j1 : d.1.j = a.1.j := by rw [h1]
      by_cases h2 : d.2 = { a.2 with m := d.2.m }
      · have j2 : d.2.j = a.2.j := by rw [h2]
        rw [if_pos ⟨h1, h2⟩]
        unfold rotSym
        rw [if_pos (same_level_symm h1), if_pos (same_level_symm h2), j1, j2]
      · rw [if_neg fun h => h2 h.2]
        unfold rotSym
        rw [if_neg fun h' : a.2 = _ => h2 (same_level_symm h'), mul_zero, zero_mul]
    · rw [if_neg fun h => h1 h.1]
      unfold rotSym
      rw [if_neg fun h' : a.1 = _ => h1 (same_level_symm h'), zero_mul, zero_mul]

theorem rotSymPairs_sum_right (st : Fin N → Option (QN × QN)) (hst : RotPairs st) (hz : AllZeemanPairs st) (g : M2) (c : Fin N) (b : QN × QN)
    (hb : st c = some b) (X : Fin N → ℂ) (G : QN × QN → ℂ) (hX : ∀ k d, st k = some d → X k = G d) :
    ∑ k, X k * (rotSymPairs st g)ᴴ k c = ∑ p ∈ Finset.range (b.1.j.toNat + 1) ×ˢ Finset.range (b.2.j.toNat + 1),
      G ({ b.1 with m := b.1.j - 2 * p.1 }, { b.2 with m := b.2.j - 2 * p.2 }) *
        ((starRingEnd ℂ) (g.sym b.1.j.toNat b.1.idx p.1) * (starRingEnd ℂ) (g.sym b.2.j.toNat b.2.idx p.2)) := by
  have h := rotSymPairs_sum_left st hst hz g c b hb (fun k => (starRingEnd ℂ) (X k)) (fun d => (starRingEnd ℂ) (G d)) (by
    intro k d hk; rw [hX k d hk])
  have h' := congrArg (starRingEnd ℂ) h
  simp only [map_sum, map_mul, Complex.conj_conj] at h'
  refine Eq.trans (Finset.sum_congr rfl fun k _ => ?_) (h'.trans (Finset.sum_congr rfl fun l _ => mul_comm _ _))
  rw [Matrix.conjTranspose_apply, mul_comm]; rfl

/-- Products of one-atom elements are conjugated atom by atom. -/
theorem pairs_rotate (st : Fin N → Option (QN × QN)) (hst : RotPairs st) (hz : AllZeemanPairs st) (g : M2) (F1 F2 : QN → QN → ℂ) :
    rotSymPairs st g * fullPairs st (fun a b => F1 a.1 b.1 * F2 a.2 b.2) * (rotSymPairs st g)ᴴ =
      fullPairs st fun a b => rotElt g F1 a.1 b.1 * rotElt g F2 a.2 b.2 := by
  ext r c
  obtain ⟨a, ha⟩ := hst.all r
  obtain ⟨b, hb⟩ := hst.all c
  rw [fullPairs_apply st _ ha hb, Matrix.mul_apply]
  rw [rotSymPairs_sum_right st hst hz g c b hb _ (fun d => ∑ p ∈ Finset.range (a.1.j.toNat + 1) ×ˢ Finset.range (a.2.j.toNat + 1),
    g.sym a.1.j.toNat a.1.idx p.1 * g.sym a.2.j.toNat a.2.idx p.2 *
      (F1 { a.1 with m := a.1.j - 2 * p.1 } d.1 * F2 { a.2 with m := a.2.j - 2 * p.2 } d.2))]
  swap
  · intro k d hk
    rw [Matrix.mul_apply]
    exact rotSymPairs_sum_left st hst hz g r a ha _ (fun e => F1 e.1 d.1 * F2 e.2 d.2) fun i e he => fullPairs_apply st _ he hk
  have e : ∀ (F : QN → QN → ℂ) (x y : QN), rotElt g F x y = ∑ lb ∈ Finset.range (y.j.toNat + 1),
      (∑ la ∈ Finset.range (x.j.toNat + 1), g.sym x.j.toNat x.idx la * F { x with m := x.j - 2 * la } { y with m := y.j - 2 * lb }) *
        (starRingEnd ℂ) (g.sym y.j.toNat y.idx lb) := by
    intro F x y
    unfold rotElt
    rw [Finset.sum_comm]
    exact Finset.sum_congr rfl fun lb _ => (Finset.sum_mul _ _ _).symm
  rw [e, e, Finset.sum_mul_sum, Finset.sum_product]
  refine Finset.sum_congr rfl fun l1 _ => Finset.sum_congr rfl fun l2 _ => ?_
  rw [show ∀ u v w x : ℂ, u * v * (w * x) = u * w * (v * x) from fun u v w x => by ring, Finset.sum_mul_sum, Finset.sum_product]
  congr 1
  refine Finset.sum_congr rfl fun m1 _ => Finset.sum_congr rfl fun m2 _ => ?_
  ring

/-! ## Rotation of tensor elements -/

theorem tensorElt_rotate {g : M2} (hg : g.SU) (κ : ℕ) (f : QN → QN → ℝ) (ρ : ℝ) (a b : QN) (a0 : 0 ≤ a.j) (am : IsM a.j a.m) (b0 : 0 ≤ b.j)
    (bm : IsM b.j b.m) (hf : ∀ m m', IsM a.j m → IsM b.j m' → f { a with m := m } { b with m := m' } = ρ * angularSpec κ a.j b.j m m') (p : ℕ)
    (hp : p ≤ 2 * κ) :
    rotElt g (tensorElt f ((κ : ℤ) - p)) a b = ∑ q ∈ Finset.range (2 * κ + 1), g.sym (2 * κ) q p * tensorElt f ((κ : ℤ) - q) a b := by
  have rhs : ∀ q ∈ Finset.range (2 * κ + 1), g.sym (2 * κ) q p * tensorElt f ((κ : ℤ) - q) a b =
      ρ * (g.sym (2 * κ) q p * angN a.j.toNat (2 * κ) b.j.toNat a.idx q b.idx) := by
    intro q _
    rw [tensorElt_ang f κ q ρ a b a0 am b0 bm (hf a.m b.m am bm)]
    ring
  rw [Finset.sum_congr rfl rhs, ← Finset.mul_sum,
    ← angN_rotate hg a.j.toNat (2 * κ) b.j.toNat a.idx b.idx p (QN.idx_spec a0 am).1 (QN.idx_spec b0 bm).1 hp, Finset.mul_sum]
  unfold rotElt
  refine Finset.sum_congr rfl fun la hla => ?_
  rw [Finset.mul_sum]
  refine Finset.sum_congr rfl fun lb hlb => ?_
  rw [tensorElt_ang f κ p ρ { a with m := a.j - 2 * la } { b with m := b.j - 2 * lb } a0 (isM_level a la a0 hla) b0 (isM_level b lb b0 hlb)
    (hf _ _ (isM_of_index hla a0) (isM_of_index hlb b0)), idx_level, idx_level]
  ring

theorem rotElt_congr (g : M2) (F F' : QN → QN → ℂ) (a b : QN) (a0 : 0 ≤ a.j) (b0 : 0 ≤ b.j)
    (h : ∀ m m', IsM a.j m → IsM b.j m' → F { a with m := m } { b with m := m' } = F' { a with m := m } { b with m := m' }) :
    rotElt g F a b = rotElt g F' a b := by
  unfold rotElt
  refine Finset.sum_congr rfl fun la hla => Finset.sum_congr rfl fun lb hlb => ?_
  rw [h _ _ (isM_of_index hla a0) (isM_of_index hlb b0)]

theorem rotElt_sum (g : M2) (n : ℕ) (c : ℕ → ℂ) (F : ℕ → QN → QN → ℂ) (a b : QN) :
    rotElt g (fun x y => ∑ p ∈ Finset.range n, c p * F p x y) a b = ∑ p ∈ Finset.range n, c p * rotElt g (F p) a b := by
  unfold rotElt
  simp only [Finset.mul_sum, Finset.sum_mul]
  rw [Finset.sum_congr rfl fun la _ => Finset.sum_comm, Finset.sum_comm]
  refine Finset.sum_congr rfl fun p _ => Finset.sum_congr rfl fun la _ => Finset.sum_congr rfl fun lb _ => ?_
  ring

/-- Elements with coefficients that depend on the change of m. -/
theorem coefElt_rotate {g : M2} (hg : g.SU) (κ : ℕ) (f : QN → QN → ℝ) (ρ : ℝ) (a b : QN) (a0 : 0 ≤ a.j) (am : IsM a.j a.m) (b0 : 0 ≤ b.j)
    (bm : IsM b.j b.m) (hf : ∀ m m', IsM a.j m → IsM b.j m' → f { a with m := m } { b with m := m' } = ρ * angularSpec κ a.j b.j m m')
    (c c' : ℕ → ℂ) (hc : ∀ q ∈ Finset.range (2 * κ + 1), c' q = ∑ p ∈ Finset.range (2 * κ + 1), g.sym (2 * κ) q p * c p) :
    rotElt g (fun x y => ∑ p ∈ Finset.range (2 * κ + 1), c p * tensorElt f ((κ : ℤ) - p) x y) a b =
      ∑ q ∈ Finset.range (2 * κ + 1), c' q * tensorElt f ((κ : ℤ) - q) a b := by
  rw [rotElt_sum]
  rw [Finset.sum_congr rfl fun p hp => by
    rw [tensorElt_rotate hg κ f ρ a b a0 am b0 bm hf p (by have := Finset.mem_range.1 hp; omega), Finset.mul_sum]]
  rw [Finset.sum_comm]
  refine Finset.sum_congr rfl fun q hq => ?_
  rw [hc q hq, Finset.sum_mul]
  exact Finset.sum_congr rfl fun p _ => by ring

/-! ## Cartesian components -/

/-- The spin rotation `g` acts on vectors as the matrix `R`. -/
def MovesBy (g : M2) (R : Matrix (Fin 3) (Fin 3) ℝ) : Prop := ∀ v : Vec3, Moves g v (Vec3.ofFn (R.mulVec v.fn))

theorem conjSph_dip (v : Vec3) (p : ℕ) (hp : p < 3) : conjSph v p = ∑ i, (v.fn i : ℂ) * dipCoef i ((1 : ℕ) - p) := by
  have h0 := csqrt2_ne
  rw [Fin.sum_univ_three]
  obtain rfl | rfl | rfl : p = 0 ∨ p = 1 ∨ p = 2 := by omega
  · rw [conjSph_0]; simp [Vec3.fn, dipCoef]; ring
  · rw [conjSph_1]; simp [Vec3.fn, dipCoef]
  · rw [conjSph_2]; simp [Vec3.fn, dipCoef]; ring

theorem dipCoef_moves {g : M2} {R : Matrix (Fin 3) (Fin 3) ℝ} (h : MovesBy g R) (i : Fin 3) :
    ∀ q ∈ Finset.range 3, ∑ i', (R i' i : ℂ) * dipCoef i' ((1 : ℕ) - q) = ∑ p ∈ Finset.range 3, g.sym 2 q p * dipCoef i ((1 : ℕ) - p) := by
  intro q hq
  have h1 := h (Vec3.ofFn (Pi.single i 1)) q hq
  have e1 : conjSph (Vec3.ofFn (R.mulVec (Vec3.ofFn (Pi.single i 1)).fn)) q = ∑ i', (R i' i : ℂ) * dipCoef i' ((1 : ℕ) - q) := by
    rw [conjSph_dip _ q (Finset.mem_range.1 hq), fn_ofFn, fn_ofFn]
    refine Finset.sum_congr rfl fun i' _ => ?_
    rw [Matrix.mulVec_single_one]; rfl
  have e2 : ∀ p ∈ Finset.range 3, conjSph (Vec3.ofFn (Pi.single i 1)) p = dipCoef i ((1 : ℕ) - p) := by
    intro p hp
    rw [conjSph_dip _ p (Finset.mem_range.1 hp), fn_ofFn, Finset.sum_eq_single i]
    · simp
    · intro b _ hb; rw [Pi.single_eq_of_ne hb]; simp
    · simp
  rw [← e1, h1]
  exact Finset.sum_congr rfl fun p hp => by rw [e2 p hp]

theorem physical_m {a : QN} (h : a.Physical) {m : ℤ} (hm : IsM a.j m) : ({ a with m := m } : QN).Physical := by
  obtain ⟨h1, h2, h3⟩ := hm
  unfold QN.Physical at h ⊢
  dsimp only
  refine ⟨h.1, h.2.1, h.2.2.1, h.2.2.2.1, h.2.2.2.2.1, abs_le.2 ⟨h1, h2⟩, by omega⟩

theorem physical_isM {a : QN} (h : a.Physical) : IsM a.j a.m := by
  unfold QN.Physical at h
  have := abs_le.1 h.2.2.2.2.2.1
  exact ⟨this.1, this.2, by omega⟩

theorem elem_we (C : FieldConsts) (radial : RadKey → ℝ) (me : Method) (k : ℕ) (a b : QN) (ha : a.Physical) (hb : b.Physical)
    (hs : a.species = b.species) (hss : a.s = b.s) : ∃ ρ : ℝ, ∀ m m', IsM a.j m → IsM b.j m' →
      elem C radial me k { a with m := m } { b with m := m' } = ρ * angularSpec k a.j b.j m m' := by
  refine ⟨C.elem.e * radial (RadKey.make me a.species k a.n b.n a.l b.l a.j b.j) * (commutesSSpec a.s k a.l b.l a.j b.j * multipoleSpec k a.l b.l), ?_⟩
  intro m m' hm hm'
  unfold elem
  rw [electricMultipole_eq C.elem radial me _ _ k k (physical_m ha hm) (physical_m hb hm') hs hss]
  simp only [outVal]
  ring

theorem cartDip_sum (C : FieldConsts) (radial : RadKey → ℝ) (me : Method) (i : Fin 3) (a b : QN) (ha : a.Physical) (hb : b.Physical)
    (hs : a.species = b.species) (hss : a.s = b.s) :
    cartDip C radial me a b i = ∑ p ∈ Finset.range 3, dipCoef i ((1 : ℕ) - p) * tensorElt (elem C radial me (1 : ℕ)) ((1 : ℕ) - p) a b := by
  have hq := mDiff_spec a b ha hb hss
  have hz := elem_m C radial me a b ha hb hs hss 1 (by norm_num)
  unfold cartDip tensorElt
  rw [mDiff_div a b ha hb hss, hq, Finset.sum_range_succ, Finset.sum_range_succ, Finset.sum_range_one]
  generalize mDiff a b = q at *
  simp only [mul_right_inj' (two_ne_zero' ℤ), Nat.cast_one, Nat.cast_zero, Nat.cast_ofNat, sub_zero, sub_self]
  by_cases h : |q| ≤ 1
  · rcases q_cases q h with rfl | rfl | rfl <;> norm_num
  · rw [hz h]; simp

/-- The Cartesian components of the dipole rotate as a vector. -/
theorem cartDip_rotate (C : FieldConsts) (radial : RadKey → ℝ) (me : Method) {g : M2} (hg : g.SU) {R : Matrix (Fin 3) (Fin 3) ℝ} (hR : MovesBy g R)
    (i : Fin 3) (a b : QN) (ha : a.Physical) (hb : b.Physical) (hs : a.species = b.species) (hss : a.s = b.s) :
    rotElt g (fun x y => cartDip C radial me x y i) a b = ∑ i', (R i' i : ℂ) * cartDip C radial me a b i' := by
  have a0 : 0 ≤ a.j := by unfold QN.Physical at ha; have := abs_nonneg (2 * a.l - a.s); omega
  have b0 : 0 ≤ b.j := by unfold QN.Physical at hb; have := abs_nonneg (2 * b.l - b.s); omega
  obtain ⟨ρ, hρ⟩ := elem_we C radial me 1 a b ha hb hs hss
  rw [rotElt_congr g _ (fun x y => ∑ p ∈ Finset.range (2 * 1 + 1), dipCoef i ((1 : ℕ) - p) * tensorElt (elem C radial me (1 : ℕ)) ((1 : ℕ) - p) x y) a b a0 b0
    (fun m m' hm hm' => cartDip_sum C radial me i _ _ (physical_m ha hm) (physical_m hb hm') hs hss)]
  rw [coefElt_rotate hg 1 _ ρ a b a0 (physical_isM ha) b0 (physical_isM hb) hρ (fun p => dipCoef i ((1 : ℕ) - p))
    (fun q => ∑ i', (R i' i : ℂ) * dipCoef i' ((1 : ℕ) - q)) (dipCoef_moves hR i)]
  simp only [Finset.sum_mul]
  rw [Finset.sum_comm]
  refine Finset.sum_congr rfl fun i' _ => ?_
  rw [cartDip_sum C radial me i' a b ha hb hs hss, Finset.mul_sum]
  exact Finset.sum_congr rfl fun p _ => by ring

/-! ## Quadrupoles -/

theorem quadCoef_comm (j k : Fin 3) (q : ℤ) : quadCoef j k q = quadCoef k j q := by
  fin_cases j <;> fin_cases k <;> simp [quadCoef]

/-- The quadrupole coefficients contracted with a vector are those of the square of the vector. -/
theorem squareForm_quad (v : Vec3) (p : ℕ) (hp : p < 5) :
    2 * squareForm v p = rt6 * ∑ j, ∑ k, (v.fn j : ℂ) * (v.fn k : ℂ) * quadCoef j k ((2 : ℕ) - p) := by
  have h6 := rt6_ne
  have h66 := rt6_sq
  have h2 := rt2_ne
  have h22 := rt2_sq
  have hI := Complex.I_sq
  have e : ((Real.sqrt 6 : ℝ) : ℂ) = rt6 := rfl
  have e2 : ∀ t : ℝ, ((t / Real.sqrt 2 : ℝ) : ℂ) = t / rt2 := by intro t; unfold rt2; push_cast; rfl
  have r3 : rt2 * (1 / rt2) = 1 := by field_simp
  simp only [Fin.sum_univ_three]
  obtain rfl | rfl | rfl | rfl | rfl : p = 0 ∨ p = 1 ∨ p = 2 ∨ p = 3 ∨ p = 4 := by omega
  · have : squareForm v 0 = conjSph v 0 * conjSph v 0 := by simp [squareForm]
    rw [this, conjSph_0, e2, e2]
    simp [Vec3.fn, quadCoef, e]
    field_simp
    rw [show rt2 ^ 2 = 2 by rw [pow_two, h22]]
    linear_combination (2 * (v.y : ℂ) ^ 2) * hI
  · have : squareForm v 1 = rt2 * (conjSph v 0 * conjSph v 1) := by simp [squareForm]
    rw [this, conjSph_0, conjSph_1, e2, e2]
    simp [Vec3.fn, quadCoef, e]
    field_simp
    ring
  · have : squareForm v 2 = 2 * (conjSph v 1 * conjSph v 1 + conjSph v 0 * conjSph v 2) / rt6 := by simp [squareForm]
    rw [this, conjSph_0, conjSph_1, conjSph_2, e2, e2, e2]
    simp [Vec3.fn, quadCoef, e]
    field_simp
    rw [show rt2 ^ 2 = 2 by rw [pow_two, h22], show rt6 ^ 2 = 6 by rw [pow_two, h66]]
    linear_combination (12 * (v.y : ℂ) ^ 2) * hI
  · have : squareForm v 3 = rt2 * (conjSph v 1 * conjSph v 2) := by simp [squareForm]
    rw [this, conjSph_1, conjSph_2, e2, e2]
    simp [Vec3.fn, quadCoef, e]
    field_simp
    ring
  · have : squareForm v 4 = conjSph v 2 * conjSph v 2 := by simp [squareForm]
    rw [this, conjSph_2, e2, e2]
    simp [Vec3.fn, quadCoef, e]
    field_simp
    rw [show rt2 ^ 2 = 2 by rw [pow_two, h22]]
    linear_combination (2 * (v.y : ℂ) ^ 2) * hI

/-- The quadratic form with the quadrupole coefficients. -/
noncomputable def quadV (v : Fin 3 → ℝ) (q : ℤ) : ℂ := ∑ j, ∑ k, (v j : ℂ) * (v k : ℂ) * quadCoef j k q

theorem quadV_moves {g : M2} {R : Matrix (Fin 3) (Fin 3) ℝ} (h : MovesBy g R) (v : Fin 3 → ℝ) :
    ∀ q ∈ Finset.range 5, quadV (R.mulVec v) ((2 : ℕ) - q) = ∑ p ∈ Finset.range 5, g.sym 4 q p * quadV v ((2 : ℕ) - p) := by
  intro q hq
  have h1 := square_moves (h (Vec3.ofFn v)) q hq
  apply mul_left_cancel₀ rt6_ne
  have e := squareForm_quad (Vec3.ofFn (R.mulVec (Vec3.ofFn v).fn)) q (Finset.mem_range.1 hq)
  rw [fn_ofFn, fn_ofFn] at e
  unfold quadV
  rw [← e]
  rw [fn_ofFn] at h1
  rw [h1, Finset.mul_sum, Finset.mul_sum]
  refine Finset.sum_congr rfl fun p hp => ?_
  have e' := squareForm_quad (Vec3.ofFn v) p (Finset.mem_range.1 hp)
  rw [fn_ofFn] at e'
  rw [mul_left_comm, e']
  ring

theorem quadV_polar (v w : Fin 3 → ℝ) (q : ℤ) :
    2 * ∑ j, ∑ k, (v j : ℂ) * (w k : ℂ) * quadCoef j k q = quadV (v + w) q - quadV v q - quadV w q := by
  unfold quadV
  rw [← Finset.sum_sub_distrib, ← Finset.sum_sub_distrib]
  have e : ∀ j k, ((v j : ℂ) * (w k : ℂ) + (w j : ℂ) * (v k : ℂ)) * quadCoef j k q =
      (((v + w) j : ℝ) : ℂ) * (((v + w) k : ℝ) : ℂ) * quadCoef j k q - (v j : ℂ) * (v k : ℂ) * quadCoef j k q - (w j : ℂ) * (w k : ℂ) * quadCoef j k q := by
    intro j k
    simp only [Pi.add_apply]; push_cast; ring
  simp only [← Finset.sum_sub_distrib, ← e, add_mul, Finset.sum_add_distrib]
  rw [two_mul]
  congr 1
  rw [Finset.sum_comm]
  refine Finset.sum_congr rfl fun j _ => Finset.sum_congr rfl fun k _ => ?_
  rw [quadCoef_comm k j]; ring

theorem quadCoef_moves {g : M2} {R : Matrix (Fin 3) (Fin 3) ℝ} (h : MovesBy g R) (j k : Fin 3) :
    ∀ q ∈ Finset.range 5, ∑ j', ∑ k', (R j' j : ℂ) * (R k' k : ℂ) * quadCoef j' k' ((2 : ℕ) - q) =
      ∑ p ∈ Finset.range 5, g.sym 4 q p * quadCoef j k ((2 : ℕ) - p) := by
  intro q hq
  have two : (2 : ℂ) ≠ 0 := two_ne_zero
  apply mul_left_cancel₀ two
  have c : ∀ i : Fin 3, (fun i' => R i' i) = R.mulVec (Pi.single i 1) := by
    intro i; rw [Matrix.mulVec_single_one]; rfl
  rw [quadV_polar (fun i' => R i' j) (fun i' => R i' k), c, c, ← Matrix.mulVec_add, quadV_moves h _ q hq, quadV_moves h _ q hq, quadV_moves h _ q hq,
    ← Finset.sum_sub_distrib, ← Finset.sum_sub_distrib, Finset.mul_sum]
  refine Finset.sum_congr rfl fun p _ => ?_
  have e := quadV_polar (Pi.single j 1) (Pi.single k 1) ((2 : ℕ) - p)
  have s : ∑ x, ∑ y, (((Pi.single j 1 : Fin 3 → ℝ) x : ℝ) : ℂ) * (((Pi.single k 1 : Fin 3 → ℝ) y : ℝ) : ℂ) * quadCoef x y ((2 : ℕ) - p) = quadCoef j k ((2 : ℕ) - p) := by
    rw [Finset.sum_eq_single j, Finset.sum_eq_single k]
    · simp
    · intro b _ hb; rw [Pi.single_eq_of_ne hb]; simp
    · simp
    · intro b _ hb; simp [Pi.single_eq_of_ne hb]
    · simp
  rw [s] at e
  rw [mul_left_comm, e]; ring

theorem cartQuad_sum (C : FieldConsts) (radial : RadKey → ℝ) (me : Method) (j k : Fin 3) (a b : QN) (ha : a.Physical) (hb : b.Physical)
    (hs : a.species = b.species) (hss : a.s = b.s) :
    cartQuad C radial me a b j k = ∑ p ∈ Finset.range 5, quadCoef j k ((2 : ℕ) - p) * tensorElt (elem C radial me (2 : ℕ)) ((2 : ℕ) - p) a b := by
  have hq := mDiff_spec a b ha hb hss
  have hz := elem_m C radial me a b ha hb hs hss 2 (by norm_num)
  unfold cartQuad tensorElt
  rw [mDiff_div a b ha hb hss, hq]
  simp only [Finset.sum_range_succ, Finset.sum_range_zero, zero_add]
  generalize mDiff a b = q at *
  simp only [mul_right_inj' (two_ne_zero' ℤ)]
  by_cases h : |q| ≤ 2
  · rcases q2_cases q h with rfl | rfl | rfl | rfl | rfl <;> norm_num
  · rw [show ((2 : ℕ) : ℤ) = 2 from rfl, hz h]; simp

/-- The Cartesian components of the quadrupole rotate as a tensor. -/
theorem cartQuad_rotate (C : FieldConsts) (radial : RadKey → ℝ) (me : Method) {g : M2} (hg : g.SU) {R : Matrix (Fin 3) (Fin 3) ℝ} (hR : MovesBy g R)
    (j k : Fin 3) (a b : QN) (ha : a.Physical) (hb : b.Physical) (hs : a.species = b.species) (hss : a.s = b.s) :
    rotElt g (fun x y => cartQuad C radial me x y j k) a b = ∑ j', ∑ k', (R j' j : ℂ) * (R k' k : ℂ) * cartQuad C radial me a b j' k' := by
  have a0 : 0 ≤ a.j := by unfold QN.Physical at ha; have := abs_nonneg (2 * a.l - a.s); omega
  have b0 : 0 ≤ b.j := by unfold QN.Physical at hb; have := abs_nonneg (2 * b.l - b.s); omega
  obtain ⟨ρ, hρ⟩ := elem_we C radial me 2 a b ha hb hs hss
  rw [rotElt_congr g _ (fun x y => ∑ p ∈ Finset.range (2 * 2 + 1), quadCoef j k ((2 : ℕ) - p) * tensorElt (elem C radial me (2 : ℕ)) ((2 : ℕ) - p) x y) a b a0 b0
    (fun m m' hm hm' => cartQuad_sum C radial me j k _ _ (physical_m ha hm) (physical_m hb hm') hs hss)]
  rw [coefElt_rotate hg 2 _ ρ a b a0 (physical_isM ha) b0 (physical_isM hb) hρ (fun p => quadCoef j k ((2 : ℕ) - p))
    (fun q => ∑ j', ∑ k', (R j' j : ℂ) * (R k' k : ℂ) * quadCoef j' k' ((2 : ℕ) - q)) (quadCoef_moves hR j k)]
  simp only [Finset.sum_mul]
  rw [Finset.sum_comm]
  refine Finset.sum_congr rfl fun j' _ => ?_
  rw [Finset.sum_comm]
  refine Finset.sum_congr rfl fun k' _ => ?_
  rw [cartQuad_sum C radial me j' k' a b ha hb hs hss, Finset.mul_sum]
  exact Finset.sum_congr rfl fun p _ => by ring

/-! ## Tensors of the distance vector -/

theorem movesBy_euler (α β γ : ℝ) : MovesBy (euler2 (-γ) (-β) (-α)) (buildRotatorEuler α β γ)ᵀ := by
  intro v
  rw [← rotateVectorEuler_eq]
  exact moves_euler α β γ v

/-- Contraction of a rotated tensor of rank 2. -/
theorem contract2 (R T T' : Matrix (Fin 3) (Fin 3) ℝ) (h : ∀ i' j', T' i' j' = ∑ i, ∑ j, R i' i * R j' j * T i j) (A B : Fin 3 → ℂ) :
    ∑ i, ∑ j, (T i j : ℂ) * ((∑ i', (R i' i : ℂ) * A i') * (∑ j', (R j' j : ℂ) * B j')) = ∑ i, ∑ j, (T' i j : ℂ) * (A i * B j) := by
  simp only [h, Fin.sum_univ_three]
  push_cast
  ring

/-- Contraction of a rotated tensor of rank 3. -/
theorem contract3 (R : Matrix (Fin 3) (Fin 3) ℝ) (T T' : Fin 3 → Fin 3 → Fin 3 → ℝ)
    (h : ∀ i' j' k', T' i' j' k' = ∑ i, ∑ j, ∑ k, R i' i * R j' j * R k' k * T i j k) (A : Fin 3 → ℂ) (B : Fin 3 → Fin 3 → ℂ) :
    ∑ i, ∑ j, ∑ k, (T i j k : ℂ) * ((∑ i', (R i' i : ℂ) * A i') * (∑ j', ∑ k', (R j' j : ℂ) * (R k' k : ℂ) * B j' k')) =
      ∑ i, ∑ j, ∑ k, (T' i j k : ℂ) * (A i * B j k) := by
  have e : ∀ i' j' k', (T' i' j' k' : ℂ) = ∑ i, ∑ j, ∑ k, (R i' i : ℂ) * R j' j * R k' k * T i j k := by
    intro i' j' k'; rw [h]; push_cast; rfl
  simp only [e, Finset.mul_sum, Finset.sum_mul]
  -- both sides are sums over all six indices
  rw [show ∀ F : Fin 3 → Fin 3 → Fin 3 → Fin 3 → Fin 3 → Fin 3 → ℂ, (∑ i, ∑ j, ∑ k, ∑ j', ∑ k', ∑ i', F i j k j' k' i') =
      ∑ x : (Fin 3 × Fin 3 × Fin 3) × (Fin 3 × Fin 3 × Fin 3), F x.1.1 x.1.2.1 x.1.2.2 x.2.2.1 x.2.2.2 x.2.1 from ?_,
    show ∀ F : Fin 3 → Fin 3 → Fin 3 → Fin 3 → Fin 3 → Fin 3 → ℂ, (∑ i', ∑ j', ∑ k', ∑ i, ∑ j, ∑ k, F i' j' k' i j k) =
      ∑ x : (Fin 3 × Fin 3 × Fin 3) × (Fin 3 × Fin 3 × Fin 3), F x.2.1 x.2.2.1 x.2.2.2 x.1.1 x.1.2.1 x.1.2.2 from ?_]
  · exact Finset.sum_congr rfl fun x _ => by ring
  · intro F
    rw [Fintype.sum_prod_type_right]
    simp only [Fintype.sum_prod_type]
  · intro F
    simp only [Fintype.sum_prod_type]
    refine Finset.sum_congr rfl fun i _ => Finset.sum_congr rfl fun j _ => Finset.sum_congr rfl fun k _ => ?_
    symm
    rw [Finset.sum_comm]
    exact Finset.sum_congr rfl fun j' _ => Finset.sum_comm

theorem ortho_cols {R : Matrix (Fin 3) (Fin 3) ℝ} (hR : R * Rᵀ = 1) (i j : Fin 3) : eye i j = ∑ k, R i k * R j k := by
  have := congrFun (congrFun hR i) j
  rw [Matrix.mul_apply, Matrix.one_apply] at this
  unfold eye
  rw [← this]
  rfl

theorem norm3_rotate {R : Matrix (Fin 3) (Fin 3) ℝ} (hR : R * Rᵀ = 1) (d : V3) : norm3 (R.mulVec d) = norm3 d := by
  have h : ∀ d : V3, d 0 * d 0 + d 1 * d 1 + d 2 * d 2 = d ⬝ᵥ d := by intro d; simp [dotProduct, Fin.sum_univ_three]
  unfold norm3
  rw [h, h, Matrix.dotProduct_mulVec, ← Matrix.mulVec_transpose, Matrix.mulVec_mulVec, mul_eq_one_comm.1 hR, Matrix.one_mulVec]

theorem eye_mul (R : Matrix (Fin 3) (Fin 3) ℝ) (hR : R * Rᵀ = 1) (i' j' : Fin 3) : ∑ i, ∑ j, R i' i * R j' j * eye i j = eye i' j' := by
  rw [ortho_cols hR i' j']
  refine Finset.sum_congr rfl fun i _ => ?_
  unfold eye
  simp

theorem ddVacuum_rotate {R : Matrix (Fin 3) (Fin 3) ℝ} (hR : R * Rᵀ = 1) (d e : V3) (he : e = R.mulVec d) (i' j' : Fin 3) :
    ddVacuum (e 0) (e 1) (e 2) i' j' = ∑ i, ∑ j, R i' i * R j' j * ddVacuum (d 0) (d 1) (d 2) i j := by
  have v : ∀ d : V3, (![d 0, d 1, d 2] : V3) = d := by intro d; ext k; fin_cases k <;> rfl
  unfold ddVacuum
  simp only [v]
  have hn : norm3 e = norm3 d := by rw [he, norm3_rotate hR]
  have h2 : e i' * e j' = ∑ i, ∑ j, R i' i * R j' j * (d i * d j) := by
    rw [he]
    simp only [Matrix.mulVec, dotProduct, Fin.sum_univ_three]
    ring
  rw [hn, ← eye_mul R hR i' j', mul_assoc, h2]
  generalize norm3 d = n
  simp only [Fin.sum_univ_three]
  ring

theorem thirdDeriv_rotate {R : Matrix (Fin 3) (Fin 3) ℝ} (hR : R * Rᵀ = 1) (d e : V3) (he : e = R.mulVec d) (i' j' k' : Fin 3) :
    thirdDeriv (e 0) (e 1) (e 2) i' j' k' = ∑ i, ∑ j, ∑ k, R i' i * R j' j * R k' k * thirdDeriv (d 0) (d 1) (d 2) i j k := by
  have v : ∀ d : V3, (![d 0, d 1, d 2] : V3) = d := by intro d; ext k; fin_cases k <;> rfl
  have nn : ∀ d : V3, Real.sqrt (d 0 ^ 2 + d 1 ^ 2 + d 2 ^ 2) = norm3 d := by intro d; unfold norm3; congr 1; ring
  unfold thirdDeriv
  simp only [v, nn]
  have hn : norm3 e = norm3 d := by rw [he, norm3_rotate hR]
  have he' : ∀ i, e i = ∑ j, R i j * d j := by intro i; rw [he]; rfl
  have h3 : e i' * e j' * e k' = ∑ i, ∑ j, ∑ k, R i' i * R j' j * R k' k * (d i * d j * d k) := by
    simp only [he', Fin.sum_univ_three]
    ring
  have h1 : eye i' j' * e k' = ∑ i, ∑ j, ∑ k, R i' i * R j' j * R k' k * (eye i j * d k) := by
    rw [← eye_mul R hR i' j', he']
    simp only [Fin.sum_univ_three]
    ring
  have h2 : eye i' k' * e j' = ∑ i, ∑ j, ∑ k, R i' i * R j' j * R k' k * (eye i k * d j) := by
    rw [← eye_mul R hR i' k', he']
    simp only [Fin.sum_univ_three]
    ring
  have h4 : eye j' k' * e i' = ∑ i, ∑ j, ∑ k, R i' i * R j' j * R k' k * (eye j k * d i) := by
    rw [← eye_mul R hR j' k', he']
    simp only [Fin.sum_univ_three]
    ring
  rw [hn, show 15 * e i' * e j' * e k' = 15 * (e i' * e j' * e k') by ring, h1, h2, h3, h4]
  generalize norm3 d = n
  simp only [← Finset.sum_add_distrib, Finset.mul_sum, Finset.sum_div, ← Finset.sum_sub_distrib]
  refine Finset.sum_congr rfl fun i _ => Finset.sum_congr rfl fun j _ => Finset.sum_congr rfl fun k _ => ?_
  ring

/-! ## The interaction -/

theorem pairs_sum_rotate {ι : Type} [Fintype ι] (st : Fin N → Option (QN × QN)) (hst : RotPairs st) (hz : AllZeemanPairs st) (g : M2) (c : ι → ℂ)
    (F1 F2 : ι → QN → QN → ℂ) :
    rotSymPairs st g * fullPairs st (fun a b => ∑ i, c i * (F1 i a.1 b.1 * F2 i a.2 b.2)) * (rotSymPairs st g)ᴴ =
      fullPairs st fun a b => ∑ i, c i * (rotElt g (F1 i) a.1 b.1 * rotElt g (F2 i) a.2 b.2) := by
  have e : ∀ H : ι → QN × QN → QN × QN → ℂ, fullPairs st (fun a b => ∑ i, c i * H i a b) = ∑ i, c i • fullPairs st (H i) := by
    intro H
    ext r k
    rw [Matrix.sum_apply]
    simp only [Matrix.smul_apply, smul_eq_mul]
    unfold fullPairs
    cases st r <;> cases st k <;> simp
  rw [e (fun i a b => F1 i a.1 b.1 * F2 i a.2 b.2), e (fun i a b => rotElt g (F1 i) a.1 b.1 * rotElt g (F2 i) a.2 b.2), Finset.mul_sum, Finset.sum_mul]
  refine Finset.sum_congr rfl fun i _ => ?_
  rw [Matrix.mul_smul, Matrix.smul_mul, pairs_rotate st hst hz g]

theorem fullPairs_congr (st : Fin N → Option (QN × QN)) (hst : GoodPairs st) (F F' : QN × QN → QN × QN → ℂ) (h : ∀ a b, PairOK a b → F a b = F' a b) :
    fullPairs st F = fullPairs st F' := by
  ext r c
  unfold fullPairs
  cases hr : st r with
  | none => rfl
  | some a =>
    cases hc : st c with
    | none => rfl
    | some b => exact h a b (hst.ok hr hc)

/-- The distance vector of the settings. -/
def PairParams.vec (p : PairParams) : Vec3 := ⟨p.x, p.y, p.z⟩

/-- The dipole-dipole interaction rotates with the distance vector. -/
theorem dd_rotate (C : FieldConsts) (radial : RadKey → ℝ) (me : Method) (st : Fin N → Option (QN × QN)) (hst : RotPairs st) (hz : AllZeemanPairs st)
    (hg0 : GoodPairs st) {g : M2} (hg : g.SU) {R : Matrix (Fin 3) (Fin 3) ℝ} (hR : MovesBy g R) (ho : R * Rᵀ = 1) (p p' : PairParams)
    (hv : p'.vec.fn = R.mulVec p.vec.fn) (hn : p.x ≠ 0 ∨ p.y ≠ 0 ∨ p.z ≠ 0) (hn' : p'.x ≠ 0 ∨ p'.y ≠ 0 ∨ p'.z ≠ 0) :
    rotSymPairs st g * fullPairs st (ddPairSpec C radial me p) * (rotSymPairs st g)ᴴ = fullPairs st (ddPairSpec C radial me p') := by
  have e : ∀ (q : PairParams), (q.x ≠ 0 ∨ q.y ≠ 0 ∨ q.z ≠ 0) → ddPairSpec C radial me q = fun a b => ∑ i : Fin 3 × Fin 3,
      (-(C.ke : ℂ) * (ddVacuum q.x q.y q.z i.1 i.2 : ℂ)) * (cartDip C radial me a.1 b.1 i.1 * cartDip C radial me a.2 b.2 i.2) := by
    intro q hq
    funext a b
    unfold ddPairSpec
    rw [← dd_vacuum_total _ _ _ _ hq, Fintype.sum_prod_type, Finset.mul_sum]
    refine Finset.sum_congr rfl fun i _ => ?_
    rw [Finset.mul_sum]
    exact Finset.sum_congr rfl fun j _ => by ring
  rw [e p hn, e p' hn']
  refine Eq.trans (pairs_sum_rotate (ι := Fin 3 × Fin 3) st hst hz g (fun i => -(C.ke : ℂ) * (ddVacuum p.x p.y p.z i.1 i.2 : ℂ))
    (fun i x y => cartDip C radial me x y i.1) (fun i x y => cartDip C radial me x y i.2)) ?_
  refine fullPairs_congr st hg0 _ _ fun a b ok => ?_
  simp only [cartDip_rotate C radial me hg hR _ a.1 b.1 ok.a1 ok.b1 ok.sp1 ok.s1, cartDip_rotate C radial me hg hR _ a.2 b.2 ok.a2 ok.b2 ok.sp2 ok.s2]
  have h := contract2 R (ddVacuum p.x p.y p.z) (ddVacuum p'.x p'.y p'.z) (ddVacuum_rotate ho p.vec.fn p'.vec.fn hv) (cartDip C radial me a.1 b.1)
    (cartDip C radial me a.2 b.2)
  simp only [Fintype.sum_prod_type, mul_assoc, ← Finset.mul_sum]
  rw [h]

/-- The dipole-quadrupole interaction between two pair states. -/
noncomputable def dqPairSpec (C : FieldConsts) (radial : RadKey → ℝ) (me : Method) (p : PairParams) (a b : QN × QN) : ℂ :=
  dipoleQuadrupole C.ke p.x p.y p.z (cartDip C radial me a.1 b.1) (cartDip C radial me a.2 b.2) (cartQuad C radial me a.1 b.1) (cartQuad C radial me a.2 b.2)

theorem thirdDeriv_cycle (x y z : ℝ) (i j k : Fin 3) : thirdDeriv x y z i j k = thirdDeriv x y z k i j := by
  unfold thirdDeriv
  have : ∀ i j, eye i j = eye j i := by intro i j; unfold eye; simp only [eq_comm]
  dsimp only
  rw [this k i, this k j]
  ring

/-- The dipole-quadrupole interaction rotates with the distance vector. -/
theorem dq_rotate (C : FieldConsts) (radial : RadKey → ℝ) (me : Method) (st : Fin N → Option (QN × QN)) (hst : RotPairs st) (hz : AllZeemanPairs st)
    (hg0 : GoodPairs st) {g : M2} (hg : g.SU) {R : Matrix (Fin 3) (Fin 3) ℝ} (hR : MovesBy g R) (ho : R * Rᵀ = 1) (p p' : PairParams)
    (hv : p'.vec.fn = R.mulVec p.vec.fn) :
    rotSymPairs st g * fullPairs st (dqPairSpec C radial me p) * (rotSymPairs st g)ᴴ = fullPairs st (dqPairSpec C radial me p') := by
  have e : ∀ (q : PairParams), dqPairSpec C radial me q = fun a b => ∑ i : Bool × Fin 3 × Fin 3 × Fin 3,
      ((C.ke : ℂ) / 2 * (if i.1 then 1 else -1) * (thirdDeriv q.x q.y q.z i.2.1 i.2.2.1 i.2.2.2 : ℂ)) *
        ((if i.1 then cartQuad C radial me a.1 b.1 i.2.2.1 i.2.2.2 else cartDip C radial me a.1 b.1 i.2.1) *
          (if i.1 then cartDip C radial me a.2 b.2 i.2.1 else cartQuad C radial me a.2 b.2 i.2.2.1 i.2.2.2)) := by
    intro q
    funext a b
    unfold dqPairSpec dipoleQuadrupole
    simp only [Fintype.sum_prod_type, Fintype.sum_bool, if_true, Bool.false_eq_true, if_false]
    simp only [mul_sub, Finset.sum_sub_distrib]
    rw [sub_eq_add_neg]
    congr 1
    · -- the quadrupole of the first atom: rename (i, j, l) to (l, i, j)
      have cyc : ∀ F : Fin 3 → Fin 3 → Fin 3 → ℂ, ∑ i, ∑ j, ∑ l, F i j l = ∑ l, ∑ i, ∑ j, F i j l := by
        intro F
        rw [Finset.sum_congr rfl fun i _ => Finset.sum_comm, Finset.sum_comm]
      rw [cyc, Finset.mul_sum]
      refine Finset.sum_congr rfl fun l _ => ?_
      rw [Finset.mul_sum]
      refine Finset.sum_congr rfl fun i _ => ?_
      rw [Finset.mul_sum]
      refine Finset.sum_congr rfl fun j _ => ?_
      rw [thirdDeriv_cycle]; ring
    · rw [Finset.mul_sum, ← Finset.sum_neg_distrib]
      refine Finset.sum_congr rfl fun l _ => ?_
      rw [Finset.mul_sum, ← Finset.sum_neg_distrib]
      refine Finset.sum_congr rfl fun i _ => ?_
      rw [Finset.mul_sum, ← Finset.sum_neg_distrib]
      refine Finset.sum_congr rfl fun j _ => ?_
      ring
  rw [e p, e p']
  refine Eq.trans (pairs_sum_rotate (ι := Bool × Fin 3 × Fin 3 × Fin 3) st hst hz g
    (fun i => (C.ke : ℂ) / 2 * (if i.1 then 1 else -1) * (thirdDeriv p.x p.y p.z i.2.1 i.2.2.1 i.2.2.2 : ℂ)) (fun i x y => if i.1 then cartQuad C radial me x y i.2.2.1 i.2.2.2 else cartDip C radial me x y i.2.1)
    (fun i x y => if i.1 then cartDip C radial me x y i.2.1 else cartQuad C radial me x y i.2.2.1 i.2.2.2)) ?_
  refine fullPairs_congr st hg0 _ _ fun a b ok => ?_
  rw [Fintype.sum_prod_type, Fintype.sum_prod_type]
  simp only [Fintype.sum_bool, if_true, Bool.false_eq_true, if_false]
  simp only [cartDip_rotate C radial me hg hR _ a.1 b.1 ok.a1 ok.b1 ok.sp1 ok.s1, cartDip_rotate C radial me hg hR _ a.2 b.2 ok.a2 ok.b2 ok.sp2 ok.s2,
    cartQuad_rotate C radial me hg hR _ _ a.1 b.1 ok.a1 ok.b1 ok.sp1 ok.s1, cartQuad_rotate C radial me hg hR _ _ a.2 b.2 ok.a2 ok.b2 ok.sp2 ok.s2]
  have h1 := contract3 R (thirdDeriv p.x p.y p.z) (thirdDeriv p'.x p'.y p'.z) (thirdDeriv_rotate ho p.vec.fn p'.vec.fn hv) (cartDip C radial me a.2 b.2)
    (cartQuad C radial me a.1 b.1)
  have h2 := contract3 R (thirdDeriv p.x p.y p.z) (thirdDeriv p'.x p'.y p'.z) (thirdDeriv_rotate ho p.vec.fn p'.vec.fn hv) (cartDip C radial me a.1 b.1)
    (cartQuad C radial me a.2 b.2)
  congr 1
  · have h := congrArg (fun t => (C.ke : ℂ) / 2 * 1 * t) h1
    simp only [Finset.mul_sum (a := (C.ke : ℂ) / 2 * 1)] at h
    simp only [Fintype.sum_prod_type]
    refine Eq.trans ?_ (h.trans ?_)
    · refine Finset.sum_congr rfl fun i _ => Finset.sum_congr rfl fun j _ => Finset.sum_congr rfl fun k _ => ?_
      ring
    · refine Finset.sum_congr rfl fun i _ => Finset.sum_congr rfl fun j _ => Finset.sum_congr rfl fun k _ => ?_
      ring
  · have h := congrArg (fun t => (C.ke : ℂ) / 2 * (-1) * t) h2
    simp only [Finset.mul_sum (a := (C.ke : ℂ) / 2 * (-1))] at h
    simp only [Fintype.sum_prod_type]
    refine Eq.trans ?_ (h.trans ?_)
    · refine Finset.sum_congr rfl fun i _ => Finset.sum_congr rfl fun j _ => Finset.sum_congr rfl fun k _ => ?_
      ring
    · refine Finset.sum_congr rfl fun i _ => Finset.sum_congr rfl fun j _ => Finset.sum_congr rfl fun k _ => ?_
      ring

end PI
