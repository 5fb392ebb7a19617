import Verif.Rot.ThreeJNorm

/-!
# C116: line strengths

The squares of the elements between the sublevels of two levels add up to the same line strength for every sublevel and every polarisation.
-/

namespace PI

/-! ## Specification -/

/-- The sublevel with projection `m = j - i` of the level of a state (doubled arguments). -/
def QN.sub (a : QN) (i : ℕ) : QN := { a with m := a.j - 2 * i }

/-- `S` is the line strength of the operator of rank `κ` between the levels of `a` and `b`: the squared elements, as the library returns them,
add up to `S / (2 j_a + 1)` over the sublevels of `b` for each sublevel of `a`, to `S / (2 j_b + 1)` over the sublevels of `a` for each sublevel of `b`,
and to `S / (2 κ + 1)` over all pairs of sublevels for each polarisation `q`. -/
structure LineStrength (f : QN → QN → Out ℝ) (κ : ℕ) (a b : QN) (S : ℝ) (x : ℕ → ℕ → ℝ) : Prop where
  elem : ∀ i ≤ a.j.toNat, ∀ k ≤ b.j.toNat, f (a.sub i) (b.sub k) = .ok (x i k)
  nonneg : 0 ≤ S
  from_a : ∀ i ≤ a.j.toNat, ∑ k ∈ Finset.range (b.j.toNat + 1), x i k ^ 2 = S / ((a.j : ℝ) + 1)
  from_b : ∀ k ≤ b.j.toNat, ∑ i ∈ Finset.range (a.j.toNat + 1), x i k ^ 2 = S / ((b.j : ℝ) + 1)
  pol : ∀ q : ℤ, |q| ≤ κ → ∑ i ∈ Finset.range (a.j.toNat + 1), ∑ k ∈ Finset.range (b.j.toNat + 1),
    (if (a.sub i).m - (b.sub k).m = 2 * q then x i k ^ 2 else 0) = S / (2 * (κ : ℝ) + 1)
  rule : ∀ i ≤ a.j.toNat, ∀ k ≤ b.j.toNat, x i k ≠ 0 → |(a.sub i).m - (b.sub k).m| ≤ 2 * κ

/-! ## Permutations of the symbol -/

theorem invNorm_cyc (k1 k2 k3 : ℕ) : invNorm k2 k3 k1 = invNorm k1 k2 k3 := by
  unfold invNorm
  rw [show k2 + k3 + k1 + 1 = k1 + k2 + k3 + 1 by omega, show k3 + k1 = k1 + k3 by omega, show k2 + k1 = k1 + k2 by omega]
  congr 1
  · congr 1; ring
  · ring

/-- The symbol does not change when its columns are permuted cyclically. -/
theorem w3i_cyc (n1 n2 n3 l1 l2 l3 : ℕ) (h1 : l1 ≤ n1) (h2 : l2 ≤ n2) (h3 : l3 ≤ n3) : w3i n2 n3 n1 l2 l3 l1 = w3i n1 n2 n3 l1 l2 l3 := by
  by_cases h : (n1 + n2 + n3) % 2 = 0 ∧ n3 ≤ n1 + n2 ∧ n1 ≤ n2 + n3 ∧ n2 ≤ n1 + n3
  · obtain ⟨k1, k2, k3, rfl, rfl, rfl⟩ : ∃ k1 k2 k3 : ℕ, n1 = k2 + k3 ∧ n2 = k3 + k1 ∧ n3 = k1 + k2 :=
      ⟨(n2 + n3 - n1) / 2, (n1 + n3 - n2) / 2, (n1 + n2 - n3) / 2, by omega, by omega, by omega⟩
    have z := coeff3_zero_of_fun (k2 + k3) (k3 + k1) (k1 + k2) (fun i j k =>
      w3n (k3 + k1) (k1 + k2) (k2 + k3) j k i * (rtC (k3 + k1) j * rtC (k1 + k2) k * rtC (k2 + k3) i) -
        w3n (k2 + k3) (k3 + k1) (k1 + k2) i j k * (rtC (k2 + k3) i * rtC (k3 + k1) j * rtC (k1 + k2) k)) (by
      intro x y z
      simp only [sub_mul, Finset.sum_sub_distrib]
      rw [sub_eq_zero]
      have g1 := gen_one k1 k2 k3 x y z
      have g2 := gen_one k2 k3 k1 y z x
      rw [show k1 + k3 = k3 + k1 by omega] at g1
      rw [show k2 + k1 = k1 + k2 by omega] at g2
      rw [g1]
      rw [invNorm_cyc] at g2
      rw [show (y - x) ^ k3 * (z - y) ^ k1 * (x - z) ^ k2 = (z - y) ^ k1 * (x - z) ^ k2 * (y - x) ^ k3 by ring, ← g2]
      rw [Finset.sum_comm]
      refine Finset.sum_congr rfl fun j _ => ?_
      rw [Finset.sum_comm]
      refine Finset.sum_congr rfl fun k _ => Finset.sum_congr rfl fun i _ => ?_
      ring) l1 (Finset.mem_range.2 (by omega)) l2 (Finset.mem_range.2 (by omega)) l3 (Finset.mem_range.2 (by omega))
    rw [sub_eq_zero] at z
    simp only [w3n_ofReal, rtC] at z
    have z' : w3i (k3 + k1) (k1 + k2) (k2 + k3) l2 l3 l1 * (Real.sqrt ((k3 + k1).choose l2) * Real.sqrt ((k1 + k2).choose l3) * Real.sqrt ((k2 + k3).choose l1)) =
      w3i (k2 + k3) (k3 + k1) (k1 + k2) l1 l2 l3 * (Real.sqrt ((k2 + k3).choose l1) * Real.sqrt ((k3 + k1).choose l2) * Real.sqrt ((k1 + k2).choose l3)) := by
      exact_mod_cast z
    have p1 := sqrt_choose_pos h1
    have p2 := sqrt_choose_pos h2
    have p3 := sqrt_choose_pos h3
    refine mul_right_cancel₀ (b := Real.sqrt ((k2 + k3).choose l1) * Real.sqrt ((k3 + k1).choose l2) * Real.sqrt ((k1 + k2).choose l3)) (by positivity) ?_
    rw [← z']; ring
  · have z : ∀ l1 l2 l3 : ℕ, w3i n1 n2 n3 l1 l2 l3 = 0 := by
      intro l1 l2 l3
      unfold w3i
      rw [w3j_invalid]
      intro hv
      unfold Valid3 at hv
      obtain ⟨_, v1, _, _, _, v2, v3, v4, _⟩ := hv
      exact h ⟨by omega, by omega, by omega, by omega⟩
    have z' : ∀ l1 l2 l3 : ℕ, w3i n2 n3 n1 l1 l2 l3 = 0 := by
      intro l1 l2 l3
      unfold w3i
      rw [w3j_invalid]
      intro hv
      unfold Valid3 at hv
      obtain ⟨_, v1, _, _, _, v2, v3, v4, _⟩ := hv
      exact h ⟨by omega, by omega, by omega, by omega⟩
    rw [z, z']

/-! ## The angular factor -/

/-- The triangle condition on the angular momenta. -/
def TriN (n1 n2 n3 : ℕ) : Prop := (n1 + n2 + n3) % 2 = 0 ∧ n3 ≤ n1 + n2 ∧ n1 ≤ n2 + n3 ∧ n2 ≤ n1 + n3

instance (n1 n2 n3 : ℕ) : Decidable (TriN n1 n2 n3) := by unfold TriN; infer_instance

theorem w3i_m_zero (n1 n2 n3 l1 l2 l3 : ℕ) (h : n1 + n2 + n3 ≠ 2 * (l1 + l2 + l3)) : w3i n1 n2 n3 l1 l2 l3 = 0 := by
  unfold w3i
  rw [w3j_invalid]
  intro hv
  obtain ⟨h0, _⟩ := hv
  omega

theorem w3i_of_ang (κ j1 j2 i k l : ℕ) (hi : i ≤ j1) (h : (κ : ℤ) - l = ((j1 : ℤ) - 2 * i - (j2 - 2 * k)) / 2) (hp : (j1 + j2) % 2 = 0) :
    angularSpec κ j1 j2 ((j1 : ℤ) - 2 * i) ((j2 : ℤ) - 2 * k) ^ 2 = w3i j1 (2 * κ) j2 (j1 - i) l k ^ 2 := by
  unfold angularSpec w3i
  rw [mul_pow, sq (sgn _), sgn_self, one_mul]
  congr 2 <;> push_cast <;> omega

/-- Square of the angular factor as a sum over all polarisations, of which at most one contributes. -/
theorem ang_sq (κ j1 j2 i k : ℕ) (hi : i ≤ j1) (hp : (j1 + j2) % 2 = 0) :
    angularSpec κ j1 j2 ((j1 : ℤ) - 2 * i) ((j2 : ℤ) - 2 * k) ^ 2 = ∑ l ∈ Finset.range (2 * κ + 1), w3i j1 (2 * κ) j2 (j1 - i) l k ^ 2 := by
  by_cases h : ∃ l : ℕ, l ≤ 2 * κ ∧ (κ : ℤ) - l = ((j1 : ℤ) - 2 * i - (j2 - 2 * k)) / 2
  · obtain ⟨l, hl, e⟩ := h
    rw [Finset.sum_eq_single l]
    · exact w3i_of_ang κ j1 j2 i k l hi e hp
    · intro l' _ hne
      rw [w3i_m_zero _ _ _ _ _ _ (by omega)]; norm_num
    · intro h; exact absurd (Finset.mem_range.2 (by omega)) h
  · rw [Finset.sum_eq_zero]
    · unfold angularSpec
      rw [w3j_invalid]
      · norm_num
      · intro hv
        obtain ⟨_, _, _, _, _, _, _, _, _, h10, _⟩ := hv
        rw [abs_le] at h10
        refine h ⟨((κ : ℤ) - ((j1 : ℤ) - 2 * i - (j2 - 2 * k)) / 2).toNat, ?_, ?_⟩ <;> omega
    · intro l hl
      have := Finset.mem_range.1 hl
      rw [w3i_m_zero _ _ _ _ _ _ (fun e => h ⟨l, by omega, by omega⟩)]; norm_num

theorem ang_from_a (κ j1 j2 i : ℕ) (hi : i ≤ j1) (ht : TriN j1 (2 * κ) j2) :
    ∑ k ∈ Finset.range (j2 + 1), angularSpec κ j1 j2 ((j1 : ℤ) - 2 * i) ((j2 : ℤ) - 2 * k) ^ 2 = 1 / ((j1 : ℝ) + 1) := by
  have hp : (j1 + j2) % 2 = 0 := by unfold TriN at ht; omega
  rw [Finset.sum_congr rfl fun k _ => ang_sq κ j1 j2 i k hi hp, Finset.sum_comm]
  exact sq3_eq j1 (2 * κ) j2 (j1 - i) ht (by omega)

theorem ang_from_b (κ j1 j2 k : ℕ) (hk : k ≤ j2) (ht : TriN j1 (2 * κ) j2) :
    ∑ i ∈ Finset.range (j1 + 1), angularSpec κ j1 j2 ((j1 : ℤ) - 2 * i) ((j2 : ℤ) - 2 * k) ^ 2 = 1 / ((j2 : ℝ) + 1) := by
  have hp : (j1 + j2) % 2 = 0 := by unfold TriN at ht; omega
  rw [Finset.sum_congr rfl fun i hi => ang_sq κ j1 j2 i k (by have := Finset.mem_range.1 hi; omega) hp]
  have r := Finset.sum_range_reflect (fun i => ∑ l ∈ Finset.range (2 * κ + 1), w3i j1 (2 * κ) j2 i l k ^ 2) (j1 + 1)
  have r' : ∑ i ∈ Finset.range (j1 + 1), ∑ l ∈ Finset.range (2 * κ + 1), w3i j1 (2 * κ) j2 (j1 - i) l k ^ 2 =
      ∑ i ∈ Finset.range (j1 + 1), ∑ l ∈ Finset.range (2 * κ + 1), w3i j1 (2 * κ) j2 i l k ^ 2 := by
    rw [← r]
    refine Finset.sum_congr rfl fun i _ => Finset.sum_congr rfl fun l _ => ?_
    rw [show j1 + 1 - 1 - i = j1 - i by omega]
  rw [r', ← sq3_eq j2 j1 (2 * κ) k (by unfold TriN at ht; omega) hk]
  unfold sq3
  refine Finset.sum_congr rfl fun i hi => Finset.sum_congr rfl fun l hl => ?_
  rw [w3i_cyc j2 j1 (2 * κ) k i l hk (by have := Finset.mem_range.1 hi; omega) (by have := Finset.mem_range.1 hl; omega)]

theorem ang_pol (κ j1 j2 : ℕ) (ht : TriN j1 (2 * κ) j2) (q : ℤ) (hq : |q| ≤ κ) :
    ∑ i ∈ Finset.range (j1 + 1), ∑ k ∈ Finset.range (j2 + 1),
      (if ((j1 : ℤ) - 2 * i) - ((j2 : ℤ) - 2 * k) = 2 * q then angularSpec κ j1 j2 ((j1 : ℤ) - 2 * i) ((j2 : ℤ) - 2 * k) ^ 2 else 0) = 1 / (2 * (κ : ℝ) + 1) := by
  have hp : (j1 + j2) % 2 = 0 := by unfold TriN at ht; omega
  rw [abs_le] at hq
  obtain ⟨l, hl, e⟩ : ∃ l : ℕ, l ≤ 2 * κ ∧ (κ : ℤ) - l = q := ⟨((κ : ℤ) - q).toNat, by omega, by omega⟩
  have h0 : ∀ i ∈ Finset.range (j1 + 1), ∀ k ∈ Finset.range (j2 + 1),
      (if ((j1 : ℤ) - 2 * i) - ((j2 : ℤ) - 2 * k) = 2 * q then angularSpec κ j1 j2 ((j1 : ℤ) - 2 * i) ((j2 : ℤ) - 2 * k) ^ 2 else 0) =
        w3i j1 (2 * κ) j2 (j1 - i) l k ^ 2 := by
    intro i hi k hk
    have := Finset.mem_range.1 hi
    by_cases c : ((j1 : ℤ) - 2 * i) - ((j2 : ℤ) - 2 * k) = 2 * q
    · rw [if_pos c]; exact w3i_of_ang κ j1 j2 i k l (by omega) (by omega) hp
    · rw [if_neg c, w3i_m_zero _ _ _ _ _ _ (by omega)]; norm_num
  rw [Finset.sum_congr rfl fun i hi => Finset.sum_congr rfl fun k hk => h0 i hi k hk]
  have r := Finset.sum_range_reflect (fun i => ∑ k ∈ Finset.range (j2 + 1), w3i j1 (2 * κ) j2 i l k ^ 2) (j1 + 1)
  have r' : ∑ i ∈ Finset.range (j1 + 1), ∑ k ∈ Finset.range (j2 + 1), w3i j1 (2 * κ) j2 (j1 - i) l k ^ 2 =
      ∑ i ∈ Finset.range (j1 + 1), ∑ k ∈ Finset.range (j2 + 1), w3i j1 (2 * κ) j2 i l k ^ 2 := by
    rw [← r]
    refine Finset.sum_congr rfl fun i _ => Finset.sum_congr rfl fun k _ => ?_
    rw [show j1 + 1 - 1 - i = j1 - i by omega]
  have s := sq3_eq (2 * κ) j2 j1 l (by unfold TriN at ht; omega) hl
  push_cast at s
  rw [r', ← s]
  unfold sq3
  rw [Finset.sum_comm]
  refine Finset.sum_congr rfl fun k hk => Finset.sum_congr rfl fun i hi => ?_
  rw [w3i_cyc j1 (2 * κ) j2 i l k (by have := Finset.mem_range.1 hi; omega) hl (by have := Finset.mem_range.1 hk; omega)]

theorem angularSpec_not_tri (κ j1 j2 : ℕ) (m1 m2 : ℤ) (ht : ¬ TriN j1 (2 * κ) j2) : angularSpec κ j1 j2 m1 m2 = 0 := by
  unfold angularSpec
  rw [w3j_invalid, mul_zero]
  intro hv
  unfold Valid3 at hv
  obtain ⟨_, v1, _, _, _, v2, v3, v4, _⟩ := hv
  unfold TriN at ht
  exact ht ⟨by omega, by omega, by omega, by omega⟩

/-- Elements of Wigner–Eckart form have a line strength. -/
theorem lineStrength_of_we (f : QN → QN → Out ℝ) (κ : ℕ) (a b : QN) (ρ : ℝ) (ja : 0 ≤ a.j) (jb : 0 ≤ b.j)
    (hf : ∀ i ≤ a.j.toNat, ∀ k ≤ b.j.toNat, f (a.sub i) (b.sub k) = .ok (ρ * angularSpec κ a.j b.j (a.sub i).m (b.sub k).m))
    (ht : ¬ TriN a.j.toNat (2 * κ) b.j.toNat → ρ = 0) :
    LineStrength f κ a b (ρ ^ 2) fun i k => ρ * angularSpec κ a.j b.j (a.sub i).m (b.sub k).m := by
  obtain ⟨n, hn⟩ := Int.eq_ofNat_of_zero_le ja
  obtain ⟨n', hn'⟩ := Int.eq_ofNat_of_zero_le jb
  have e : a.j.toNat = n := by omega
  have e' : b.j.toNat = n' := by omega
  have ma : ∀ i, (a.sub i).m = (n : ℤ) - 2 * i := fun i => by simp [QN.sub, hn]
  have mb : ∀ i, (b.sub i).m = (n' : ℤ) - 2 * i := fun i => by simp [QN.sub, hn']
  by_cases t : TriN n (2 * κ) n'
  · refine ⟨hf, by positivity, ?_, ?_, ?_, ?_⟩
    · intro i hi
      rw [e] at hi
      have h := ang_from_a κ n n' i hi t
      simp only [mul_pow, ← Finset.mul_sum, ma, mb, hn, hn', Int.toNat_natCast]
      rw [h]; push_cast; ring
    · intro k hk
      rw [e'] at hk
      have h := ang_from_b κ n n' k hk t
      simp only [mul_pow, ← Finset.mul_sum, ma, mb, hn, hn', Int.toNat_natCast]
      rw [h]; push_cast; ring
    · intro q hq
      have h := ang_pol κ n n' t q hq
      rw [div_eq_mul_one_div, ← h, Finset.mul_sum, e, e']
      refine Finset.sum_congr rfl fun i _ => ?_
      rw [Finset.mul_sum]
      refine Finset.sum_congr rfl fun k _ => ?_
      rw [ma, mb, hn, hn']
      by_cases c : ((n : ℤ) - 2 * i) - ((n' : ℤ) - 2 * k) = 2 * q
      · rw [if_pos c, if_pos c, mul_pow]
      · rw [if_neg c, if_neg c, mul_zero]
    · intro i hi k hk hx
      by_contra hc
      apply hx
      have : angularSpec κ a.j b.j (a.sub i).m (b.sub k).m = 0 := by
        unfold angularSpec
        rw [w3j_invalid, mul_zero]
        intro hv
        obtain ⟨_, _, _, _, _, _, _, _, _, h10, _⟩ := hv
        exact hc h10
      rw [this, mul_zero]
  · have hρ := ht (by rw [e, e']; exact t)
    subst hρ
    refine ⟨hf, by norm_num, ?_, ?_, ?_, ?_⟩
    · intro i _; simp
    · intro i _; simp
    · intro q _; simp
    · intro i _ k _ h; simp at h

theorem sub_physical (a : QN) (ha : a.Physical) (i : ℕ) (hi : i ≤ a.j.toNat) : (a.sub i).Physical := by
  unfold QN.Physical QN.sub at *
  dsimp only
  obtain ⟨h1, h2, h3, h4, h5, h6, h7⟩ := ha
  have hj : 0 ≤ a.j := le_trans (abs_nonneg _) h3
  refine ⟨h1, h2, h3, h4, h5, ?_, by omega⟩
  rw [abs_le]; omega

theorem commutesS_not_tri (s κ l1 l2 : ℤ) (j1 j2 : ℤ) (h : ¬ Tri j2 j1 (2 * κ)) : commutesSSpec s κ l1 l2 j1 j2 = 0 := by
  unfold commutesSSpec w6j
  rw [if_neg (by tauto), mul_zero]

/-! ## The theorems -/

/-- **C116.** Electric multipole elements: the squares add up to the square of the reduced element, which has no dependence on projections, for every sublevel and polarisation. -/
theorem C116_electric (C : ElemConsts) (radial : RadKey → ℝ) (me : Method) (a b : QN) (kr : ℤ) (κ : ℕ)
    (ha : a.Physical) (hb : b.Physical) (hs : a.species = b.species) (hss : a.s = b.s) :
    ∃ x, LineStrength (fun a b => electricMultipole C radial me a b kr κ) κ a b
      ((C.e * radial (RadKey.make me a.species kr a.n b.n a.l b.l a.j b.j) * commutesSSpec a.s κ a.l b.l a.j b.j * multipoleSpec κ a.l b.l) ^ 2) x := by
  have ja : 0 ≤ a.j := le_trans (abs_nonneg _) ha.2.2.1
  have jb : 0 ≤ b.j := le_trans (abs_nonneg _) hb.2.2.1
  refine ⟨_, lineStrength_of_we _ κ a b _ ja jb ?_ ?_⟩
  · intro i hi k hk
    rw [electricMultipole_eq C radial me (a.sub i) (b.sub k) kr κ (sub_physical a ha i hi) (sub_physical b hb k hk) hs hss]
    simp only [QN.sub, Out.ok.injEq]
    ring
  · intro t
    rw [commutesS_not_tri, mul_zero, zero_mul]
    intro h
    apply t
    unfold Tri at h
    unfold TriN
    omega

/-- The element of a magnetic dipole in Wigner–Eckart form, also between different `l`. -/
theorem magneticDipole_we (C : ElemConsts) (radial : RadKey → ℝ) (me : Method) (a b : QN) (ha : a.Physical) (hb : b.Physical) (hs : a.species = b.species) :
    magneticDipole C radial me a b = .ok ((-C.muB * radial (RadKey.make me a.species 0 a.n b.n a.l b.l a.j b.j) *
      (C.gL * ((ComKey.make a.s 1 a.l b.l a.j b.j).2 * (ComKey.make a.s 1 a.l b.l a.j b.j).1.valueS) * Real.sqrt (a.l * (a.l + 1) * (2 * a.l + 1)) +
        C.gS * ((ComKey.make a.s 1 a.l b.l a.j b.j).2 * (ComKey.make a.s 1 a.l b.l a.j b.j).1.valueL) * Real.sqrt ((a.s : ℝ) / 2 * (a.s / 2 + 1) * (a.s + 1)))) *
      angularSpec 1 a.j b.j a.m b.m) := by
  unfold magneticDipole
  rw [if_neg (by simp [hs])]
  unfold QN.Physical at ha hb
  have a1 := (C16_angular_order 1 a.j b.j a.m b.m (by omega) (by omega)).1
  rw [← a1]
  simp only [Out.ok.injEq]
  ring

/-- **C116.** Magnetic dipole elements. -/
theorem C116_magnetic (C : ElemConsts) (radial : RadKey → ℝ) (me : Method) (a b : QN) (ha : a.Physical) (hb : b.Physical) (hs : a.species = b.species) :
    ∃ S x, LineStrength (magneticDipole C radial me) 1 a b S x := by
  have ja : 0 ≤ a.j := le_trans (abs_nonneg _) ha.2.2.1
  have jb : 0 ≤ b.j := le_trans (abs_nonneg _) hb.2.2.1
  refine ⟨_, _, lineStrength_of_we (magneticDipole C radial me) 1 a b (if TriN a.j.toNat (2 * 1) b.j.toNat then -C.muB * radial (RadKey.make me a.species 0 a.n b.n a.l b.l a.j b.j) *
      (C.gL * ((ComKey.make a.s 1 a.l b.l a.j b.j).2 * (ComKey.make a.s 1 a.l b.l a.j b.j).1.valueS) * Real.sqrt (a.l * (a.l + 1) * (2 * a.l + 1)) +
        C.gS * ((ComKey.make a.s 1 a.l b.l a.j b.j).2 * (ComKey.make a.s 1 a.l b.l a.j b.j).1.valueL) * Real.sqrt ((a.s : ℝ) / 2 * (a.s / 2 + 1) * (a.s + 1))) else 0)
    ja jb ?_ ?_⟩
  · intro i hi k hk
    rw [magneticDipole_we C radial me (a.sub i) (b.sub k) (sub_physical a ha i hi) (sub_physical b hb k hk) hs]
    by_cases t : TriN a.j.toNat (2 * 1) b.j.toNat
    · rw [if_pos t]; rfl
    · rw [if_neg t, zero_mul]
      have h := angularSpec_not_tri 1 a.j.toNat b.j.toNat (a.sub i).m (b.sub k).m t
      rw [show ((a.j.toNat : ℕ) : ℤ) = a.j by omega, show ((b.j.toNat : ℕ) : ℤ) = b.j by omega] at h
      have h' : angularSpec 1 (a.sub i).j (b.sub k).j (a.sub i).m (b.sub k).m = 0 := by
        rw [Nat.cast_one] at h; exact h
      rw [h', mul_zero]
  · intro t; exact if_neg t

/-- **C116.** No element exceeds the line strength, and the squares over all pairs of sublevels add up to it. -/
theorem C116_total {f : QN → QN → Out ℝ} {κ : ℕ} {a b : QN} {S : ℝ} {x : ℕ → ℕ → ℝ} (ja : 0 ≤ a.j) (h : LineStrength f κ a b S x) :
    ∑ i ∈ Finset.range (a.j.toNat + 1), ∑ k ∈ Finset.range (b.j.toNat + 1), x i k ^ 2 = S ∧
    ∀ i ≤ a.j.toNat, ∀ k ≤ b.j.toNat, x i k ^ 2 ≤ S / ((a.j : ℝ) + 1) ∧ x i k ^ 2 ≤ S / ((b.j : ℝ) + 1) := by
  refine ⟨?_, ?_⟩
  · rw [Finset.sum_congr rfl fun i hi => h.from_a i (by have := Finset.mem_range.1 hi; omega), Finset.sum_const, Finset.card_range, nsmul_eq_mul]
    have hj : ((a.j.toNat : ℕ) : ℝ) = (a.j : ℝ) := by
      have : ((a.j.toNat : ℕ) : ℤ) = a.j := by omega
      exact_mod_cast this
    have : (0 : ℝ) ≤ a.j := by exact_mod_cast ja
    push_cast
    rw [hj]
    field_simp
  · intro i hi k hk
    constructor
    · rw [← h.from_a i hi]
      exact Finset.single_le_sum (f := fun k => x i k ^ 2) (fun _ _ => by positivity) (Finset.mem_range.2 (by omega))
    · rw [← h.from_b k hk]
      exact Finset.single_le_sum (f := fun i => x i k ^ 2) (fun _ _ => by positivity) (Finset.mem_range.2 (by omega))

/-- The symbols of the library: the squares of all symbols of three momenta that can be coupled add up to one. -/
theorem C116_symbols (n1 n2 n3 : ℕ) (ht : TriN n1 n2 n3) :
    (∑ l1 ∈ Finset.range (n1 + 1), ∑ l2 ∈ Finset.range (n2 + 1), ∑ l3 ∈ Finset.range (n3 + 1),
      w3j n1 n2 n3 ((n1 : ℤ) - 2 * l1) ((n2 : ℤ) - 2 * l2) ((n3 : ℤ) - 2 * l3) ^ 2 = 1) ∧
    ∀ m1 m2 m3 : ℤ, |w3j n1 n2 n3 m1 m2 m3| ≤ 1 := by
  have tot : (∑ l1 ∈ Finset.range (n1 + 1), ∑ l2 ∈ Finset.range (n2 + 1), ∑ l3 ∈ Finset.range (n3 + 1),
      w3i n1 n2 n3 l1 l2 l3 ^ 2 = 1) := by
    show ∑ l1 ∈ Finset.range (n1 + 1), sq3 n1 n2 n3 l1 = 1
    rw [Finset.sum_congr rfl fun l1 hl => sq3_eq n1 n2 n3 l1 ht (by have := Finset.mem_range.1 hl; omega), Finset.sum_const, Finset.card_range, nsmul_eq_mul]
    push_cast
    field_simp
  refine ⟨tot, ?_⟩
  intro m1 m2 m3
  by_cases hv : Valid3 n1 n2 n3 m1 m2 m3
  · obtain ⟨h1, h2, h3, h4, h5, h6, h7, h8, h9, h10, h11⟩ := hv
    rw [abs_le] at h9 h10 h11
    obtain ⟨l1, rfl⟩ : ∃ l : ℕ, m1 = (n1 : ℤ) - 2 * l := ⟨(((n1 : ℤ) - m1) / 2).toNat, by omega⟩
    obtain ⟨l2, rfl⟩ : ∃ l : ℕ, m2 = (n2 : ℤ) - 2 * l := ⟨(((n2 : ℤ) - m2) / 2).toNat, by omega⟩
    obtain ⟨l3, rfl⟩ : ∃ l : ℕ, m3 = (n3 : ℤ) - 2 * l := ⟨(((n3 : ℤ) - m3) / 2).toNat, by omega⟩
    have e : w3i n1 n2 n3 l1 l2 l3 ^ 2 ≤ 1 := by
      rw [← tot]
      refine le_trans ?_ (Finset.single_le_sum (f := fun l1 => ∑ l2 ∈ Finset.range (n2 + 1), ∑ l3 ∈ Finset.range (n3 + 1), w3i n1 n2 n3 l1 l2 l3 ^ 2)
        (fun _ _ => by positivity) (Finset.mem_range.2 (show l1 < n1 + 1 by omega)))
      refine le_trans ?_ (Finset.single_le_sum (f := fun l2 => ∑ l3 ∈ Finset.range (n3 + 1), w3i n1 n2 n3 l1 l2 l3 ^ 2)
        (fun _ _ => by positivity) (Finset.mem_range.2 (show l2 < n2 + 1 by omega)))
      exact Finset.single_le_sum (f := fun l3 => w3i n1 n2 n3 l1 l2 l3 ^ 2) (fun _ _ => by positivity) (Finset.mem_range.2 (show l3 < n3 + 1 by omega))
    exact abs_le_one_iff_mul_self_le_one.2 (by rw [← sq]; exact e)
  · rw [w3j_invalid hv]; norm_num

/-- The hypotheses are met by 61 S₁/₂ and 60 P₃/₂, and their dipole line strength is not zero if the radial element is not. -/
example : qnS.Physical ∧ qnP.Physical ∧ qnS.species = qnP.species ∧ qnS.s = qnP.s ∧ TriN qnS.j.toNat (2 * 1) qnP.j.toNat := by
  unfold QN.Physical TriN; decide

end PI
