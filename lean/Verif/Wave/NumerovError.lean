import Verif.Wave.Schroedinger
import Mathlib.Analysis.Calculus.Deriv.MeanValue
import Mathlib.Analysis.Calculus.IteratedDeriv.Defs

/-!
# C110: the error of the table

Numerov's scheme has a local error of order dx⁶ and a global error of order dx⁴. Both bounds are proved here with explicit constants, for every exact solution of the equation.
-/

namespace PI

open Filter Topology

/-! ## Taylor's formula with a bound -/

/-- The Taylor polynomial with n terms of f 0, where f k is the k-th derivative. -/
noncomputable def taylorPoly (f : ℕ → ℝ → ℝ) (t : ℝ) (n : ℕ) (s : ℝ) : ℝ := ∑ k ∈ Finset.range n, f k t * s ^ k / (k.factorial : ℝ)

theorem taylorPoly_hasDeriv (f : ℕ → ℝ → ℝ) (t : ℝ) (n : ℕ) (s : ℝ) :
    HasDerivAt (taylorPoly f t (n + 1)) (taylorPoly (fun k => f (k + 1)) t n s) s := by
  induction n with
  | zero =>
    have : taylorPoly f t 1 = fun _ => f 0 t := by funext s; simp [taylorPoly]
    rw [show (0 + 1) = 1 from rfl, this]
    simpa [taylorPoly] using hasDerivAt_const s (f 0 t)
  | succ n ih =>
    have e : taylorPoly f t (n + 1 + 1) = fun s => taylorPoly f t (n + 1) s + f (n + 1) t * s ^ (n + 1) / ((n + 1).factorial : ℝ) := by
      funext s; unfold taylorPoly; rw [Finset.sum_range_succ]
    rw [e]
    have hd : HasDerivAt (fun s : ℝ => f (n + 1) t * s ^ (n + 1) / ((n + 1).factorial : ℝ)) (f (n + 1) t * s ^ n / (n.factorial : ℝ)) s := by
      have h := ((hasDerivAt_pow (n + 1) s).const_mul (f (n + 1) t)).div_const ((n + 1).factorial : ℝ)
      refine h.congr_deriv ?_
      have h1 : ((n + 1).factorial : ℝ) = (n + 1) * n.factorial := by rw [Nat.factorial_succ]; push_cast; ring
      have h2 : (n.factorial : ℝ) ≠ 0 := by exact_mod_cast n.factorial_ne_zero
      have h3 : ((n : ℝ) + 1) ≠ 0 := by positivity
      rw [h1]
      push_cast
      field_simp
      try simp
    refine (ih.add hd).congr_deriv ?_
    unfold taylorPoly
    rw [Finset.sum_range_succ]

/-- Taylor's formula to the right. -/
theorem taylor_right (n : ℕ) : ∀ (f : ℕ → ℝ → ℝ) (t M h : ℝ), 0 ≤ h →
    (∀ k, k < n → ∀ s, t ≤ s → s ≤ t + h → HasDerivAt (f k) (f (k + 1) s) s) →
    (∀ s, t ≤ s → s ≤ t + h → |f n s| ≤ M) →
    ∀ s, 0 ≤ s → s ≤ h → |f 0 (t + s) - taylorPoly f t n s| ≤ M * s ^ n / (n.factorial : ℝ) := by
  induction n with
  | zero =>
    intro f t M h _ _ hM s h0 h1
    simpa [taylorPoly] using hM (t + s) (by linarith) (by linarith)
  | succ n ih =>
    intro f t M h hh hd hM s h0 h1
    have ih' := ih (fun k => f (k + 1)) t M h hh (fun k hk s a b => hd (k + 1) (by omega) s a b) hM
    have hD : ∀ s, 0 ≤ s → s ≤ h → HasDerivAt (fun s => f 0 (t + s) - taylorPoly f t (n + 1) s)
        (f 1 (t + s) - taylorPoly (fun k => f (k + 1)) t n s) s := by
      intro s a b
      have h1 : HasDerivAt (fun s => f 0 (t + s)) (f 1 (t + s)) s := by
        have h2 : HasDerivAt (fun s : ℝ => t + s) 1 s := (hasDerivAt_id s).const_add t
        have := HasDerivAt.comp s (hd 0 (by omega) (t + s) (by linarith) (by linarith)) h2
        refine this.congr_deriv ?_
        simp
      exact h1.sub (taylorPoly_hasDeriv f t n s)
    have hB : ∀ s : ℝ, HasDerivAt (fun s : ℝ => M * s ^ (n + 1) / ((n + 1).factorial : ℝ)) (M * s ^ n / (n.factorial : ℝ)) s := by
      intro s
      have h := ((hasDerivAt_pow (n + 1) s).const_mul M).div_const ((n + 1).factorial : ℝ)
      refine h.congr_deriv ?_
      have h1 : ((n + 1).factorial : ℝ) = (n + 1) * n.factorial := by rw [Nat.factorial_succ]; push_cast; ring
      have h2 : (n.factorial : ℝ) ≠ 0 := by exact_mod_cast n.factorial_ne_zero
      have h3 : ((n : ℝ) + 1) ≠ 0 := by positivity
      rw [h1]
      push_cast
      field_simp
      try simp
    have key := image_norm_le_of_norm_deriv_right_le_deriv_boundary' (f := fun s => f 0 (t + s) - taylorPoly f t (n + 1) s)
      (f' := fun s => f 1 (t + s) - taylorPoly (fun k => f (k + 1)) t n s) (a := 0) (b := h)
      (fun s hs => (hD s hs.1 hs.2).continuousAt.continuousWithinAt)
      (fun s hs => (hD s hs.1 hs.2.le).hasDerivWithinAt)
      (B := fun s : ℝ => M * s ^ (n + 1) / ((n + 1).factorial : ℝ)) (B' := fun s : ℝ => M * s ^ n / (n.factorial : ℝ))
      (by
        have : taylorPoly f t (n + 1) 0 = f 0 t := by
          unfold taylorPoly
          rw [Finset.sum_range_succ']
          simp
        simp [this])
      (fun s _ => (hB s).continuousAt.continuousWithinAt)
      (fun s _ => (hB s).hasDerivWithinAt)
      (fun s hs => by simpa [Real.norm_eq_abs] using ih' s hs.1 hs.2.le)
    simpa [Real.norm_eq_abs] using key (x := s) ⟨h0, h1⟩

/-- Taylor's formula to the left. -/
theorem taylor_left (n : ℕ) (f : ℕ → ℝ → ℝ) (t M h : ℝ) (hh : 0 ≤ h)
    (hd : ∀ k, k < n → ∀ s, t - h ≤ s → s ≤ t → HasDerivAt (f k) (f (k + 1) s) s)
    (hM : ∀ s, t - h ≤ s → s ≤ t → |f n s| ≤ M) (s : ℝ) (h0 : 0 ≤ s) (h1 : s ≤ h) :
    |f 0 (t - s) - taylorPoly f t n (-s)| ≤ M * s ^ n / (n.factorial : ℝ) := by
  have := taylor_right n (fun k s => (-1) ^ k * f k (-s)) (-t) M h hh
    (fun k hk s a b => by
      have h1 := hd k hk (-s) (by linarith) (by linarith)
      have h2 := (h1.comp s (hasDerivAt_neg s)).const_mul ((-1 : ℝ) ^ k)
      refine (h2.congr_deriv ?_)
      rw [pow_succ]; ring)
    (fun s a b => by
      rw [abs_mul, abs_pow, abs_neg, abs_one, one_pow, one_mul]
      exact hM (-s) (by linarith) (by linarith)) s h0 h1
  have e1 : -(-t + s) = t - s := by ring
  have e2 : taylorPoly (fun k s => (-1) ^ k * f k (-s)) (-t) n s = taylorPoly f t n (-s) := by
    unfold taylorPoly
    refine Finset.sum_congr rfl fun k _ => ?_
    dsimp only
    rw [neg_neg, neg_pow s]; ring
  simp only [pow_zero, one_mul] at this
  rwa [e1, e2] at this

/-- Numerov's formula: the combination of three values and three second derivatives is of order h⁶. -/
theorem numerov_local (f : ℕ → ℝ → ℝ) (t M h : ℝ) (hh : 0 ≤ h)
    (hd : ∀ k, k < 6 → ∀ s, t - h ≤ s → s ≤ t + h → HasDerivAt (f k) (f (k + 1) s) s)
    (hM : ∀ s, t - h ≤ s → s ≤ t + h → |f 6 s| ≤ M) :
    |f 0 (t + h) - 2 * f 0 t + f 0 (t - h) - h ^ 2 / 12 * (f 2 (t + h) + 10 * f 2 t + f 2 (t - h))| ≤ 7 / 720 * M * h ^ 6 := by
  have a1 := taylor_right 6 f t M h hh (fun k hk s a b => hd k hk s (by linarith) b) (fun s a b => hM s (by linarith) b) h hh le_rfl
  have a2 := taylor_left 6 f t M h hh (fun k hk s a b => hd k hk s a (by linarith)) (fun s a b => hM s a (by linarith)) h hh le_rfl
  have a3 := taylor_right 4 (fun k => f (k + 2)) t M h hh (fun k hk s a b => hd (k + 2) (by omega) s (by linarith) b) (fun s a b => hM s (by linarith) b) h hh le_rfl
  have a4 := taylor_left 4 (fun k => f (k + 2)) t M h hh (fun k hk s a b => hd (k + 2) (by omega) s a (by linarith)) (fun s a b => hM s a (by linarith)) h hh le_rfl
  simp only [taylorPoly, Finset.sum_range_succ, Finset.sum_range_zero, Nat.factorial, Nat.succ_eq_add_one] at a1 a2 a3 a4
  norm_num at a1 a2 a3 a4
  rw [abs_le] at a1 a2 a3 a4 ⊢
  have q1 : 0 ≤ h ^ 2 / 12 := by positivity
  have b3 := mul_le_mul_of_nonneg_left a3.1 q1
  have b3' := mul_le_mul_of_nonneg_left a3.2 q1
  have b4 := mul_le_mul_of_nonneg_left a4.1 q1
  have b4' := mul_le_mul_of_nonneg_left a4.2 q1
  constructor <;> nlinarith [a1.1, a1.2, a2.1, a2.2]

/-! ## Error propagation -/

/-- A discrete Gronwall inequality of second order. -/
theorem gronwall2 (z : ℕ → ℝ) (N : ℕ) (h k τ : ℝ) (hh : 0 < h) (hk : 0 ≤ k) (hτ : 0 ≤ τ)
    (hz : ∀ t, t + 2 ≤ N → |z (t + 2) - 2 * z (t + 1) + z t| ≤ h ^ 2 * k ^ 2 * |z (t + 1)| + τ) :
    ∀ t, t + 1 ≤ N → k * |z t| + |z (t + 1) - z t| / h ≤ (1 + h * k + h ^ 2 * k ^ 2) ^ t * (k * |z 0| + |z 1 - z 0| / h + t * (τ / h)) := by
  intro t
  induction t with
  | zero => intro _; simp
  | succ t ih =>
    intro ht
    have ih := ih (by omega)
    have hz := hz t (by omega)
    have e1 : |z (t + 1)| ≤ |z t| + |z (t + 1) - z t| := by
      have := abs_add_le (z t) (z (t + 1) - z t)
      rwa [add_sub_cancel] at this
    have e2 : |z (t + 1 + 1) - z (t + 1)| ≤ |z (t + 1) - z t| + (h ^ 2 * k ^ 2 * |z (t + 1)| + τ) := by
      have e : z (t + 1 + 1) - z (t + 1) = (z (t + 1) - z t) + (z (t + 2) - 2 * z (t + 1) + z t) := by ring_nf
      rw [e]
      exact (abs_add_le _ _).trans (by linarith)
    set a := |z t| with ha
    set d := |z (t + 1) - z t| with hd
    have ha0 : 0 ≤ a := abs_nonneg _
    have hd0 : 0 ≤ d := abs_nonneg _
    have step : k * |z (t + 1)| + |z (t + 1 + 1) - z (t + 1)| / h ≤ (1 + h * k + h ^ 2 * k ^ 2) * (k * a + d / h) + τ / h := by
      have e3 : |z (t + 1 + 1) - z (t + 1)| / h ≤ (d + (h ^ 2 * k ^ 2 * (a + d) + τ)) / h := by
        apply div_le_div_of_nonneg_right _ hh.le
        have := mul_le_mul_of_nonneg_left e1 (by positivity : 0 ≤ h ^ 2 * k ^ 2)
        linarith
      have e4 := mul_le_mul_of_nonneg_left e1 hk
      have e5 : (d + (h ^ 2 * k ^ 2 * (a + d) + τ)) / h = d / h + h * k ^ 2 * (a + d) + τ / h := by field_simp; ring
      have e6 : (1 + h * k + h ^ 2 * k ^ 2) * (k * a + d / h) = k * a + d / h + h * k ^ 2 * a + k * d + h ^ 2 * k ^ 3 * a + h * k ^ 2 * d := by field_simp; ring
      have e7 : 0 ≤ h ^ 2 * k ^ 3 * a := by positivity
      rw [e5] at e3
      rw [e6]
      nlinarith
    set A := 1 + h * k + h ^ 2 * k ^ 2 with hA
    have hA1 : 1 ≤ A := by
      have : 0 ≤ h * k + h ^ 2 * k ^ 2 := by positivity
      linarith
    have hτh : 0 ≤ τ / h := by positivity
    calc k * |z (t + 1)| + |z (t + 1 + 1) - z (t + 1)| / h ≤ A * (k * a + d / h) + τ / h := step
      _ ≤ A * (A ^ t * (k * |z 0| + |z 1 - z 0| / h + t * (τ / h))) + A ^ (t + 1) * (τ / h) := by
        have h1 := mul_le_mul_of_nonneg_left ih (by linarith : 0 ≤ A)
        have h2 : τ / h ≤ A ^ (t + 1) * (τ / h) := le_mul_of_one_le_left hτh (one_le_pow₀ hA1)
        linarith
      _ = A ^ (t + 1) * (k * |z 0| + |z 1 - z 0| / h + ((t + 1 : ℕ) : ℝ) * (τ / h)) := by push_cast; ring

/-- Specification: f 0 is an exact solution of f'' = g(x²) f on the positive axis; f k is its k-th derivative. -/
structure ExactSolution (q : WfParams) (f : ℕ → ℝ → ℝ) : Prop where
  deriv : ∀ k, k < 6 → ∀ s, 0 < s → HasDerivAt (f k) (f (k + 1) s) s
  eq : ∀ s, 0 < s → f 2 s = modelG q (s ^ 2) * f 0 s

/-- Specification: the factor 1 − dx² g/12 at a grid point. -/
noncomputable def numerovFactor (q : WfParams) (x : ℝ) : ℝ := 1 - wfDx ^ 2 / 12 * modelG q (x ^ 2)

theorem numerov_x (q : WfParams) (i : ℤ) : (numerov q).x i = numerovXmin q + i * wfDx := rfl

/-- **C110.** Local error: for every state with n ≥ 1, every exact solution f of the equation and every bound M of its sixth derivative on the grid, the difference between the
table and f satisfies Numerov's recurrence up to 7/720 M dx⁶. -/
theorem C110_local_error (q : WfParams) (hn : 1 ≤ q.n) (f : ℕ → ℝ → ℝ) (hf : ExactSolution q f) (M : ℝ) :
    let w := numerov q
    let e := fun i : ℤ => w.y i - f 0 (w.x i)
    (∀ s, w.x 0 ≤ s → s ≤ w.x (w.rows - 1) → |f 6 s| ≤ M) →
    ∀ i, 0 ≤ i → i + 2 < w.rows → numerovFactor q (w.x i) ≠ 0 →
      |numerovFactor q (w.x i) * e i - (2 + 5 / 6 * wfDx ^ 2 * modelG q (w.x (i + 1) ^ 2)) * e (i + 1) + numerovFactor q (w.x (i + 2)) * e (i + 2)| ≤ 7 / 720 * M * wfDx ^ 6 := by
  intro w e hM i h0 h2 hC
  obtain ⟨_, hx1, _, _, _, _, hrec⟩ := C52_numerov_normalised q hn
  have hr := hrec i h0 h2 hC
  have hdx : (0 : ℝ) < wfDx := by unfold wfDx; norm_num
  have hxi : ∀ j, w.x j = w.x 0 + j * wfDx := fun j => by
    show ((numerovXmin q : ℝ) + j * wfDx) = (numerovXmin q + (0 : ℤ) * wfDx) + j * wfDx
    simp
  have x0 : 1 ≤ w.x 0 := hx1
  have xa : w.x i = w.x (i + 1) - wfDx := by rw [hxi i, hxi (i + 1)]; push_cast; ring
  have xb : w.x (i + 2) = w.x (i + 1) + wfDx := by rw [hxi (i + 2), hxi (i + 1)]; push_cast; ring
  have lo : w.x 0 ≤ w.x i := by
    rw [hxi i]
    have : (0 : ℝ) ≤ i := by exact_mod_cast h0
    nlinarith
  have hi : w.x (i + 2) ≤ w.x (w.rows - 1) := by
    rw [hxi (i + 2), hxi (w.rows - 1)]
    have : ((i + 2 : ℤ) : ℝ) ≤ ((w.rows - 1 : ℤ) : ℝ) := by exact_mod_cast (by omega : i + 2 ≤ w.rows - 1)
    nlinarith
  have loc := numerov_local f (w.x (i + 1)) M wfDx hdx.le
    (fun k hk s a b => hf.deriv k hk s (by linarith)) (fun s a b => hM s (by linarith) (by linarith))
  rw [← xa, ← xb, hf.eq (w.x i) (by linarith), hf.eq (w.x (i + 1)) (by linarith), hf.eq (w.x (i + 2)) (by linarith)] at loc
  refine le_trans (le_of_eq ?_) loc
  rw [← abs_neg]
  congr 1
  show -(numerovFactor q (w.x i) * (w.y i - f 0 (w.x i)) - (2 + 5 / 6 * wfDx ^ 2 * modelG q (w.x (i + 1) ^ 2)) * (w.y (i + 1) - f 0 (w.x (i + 1))) +
    numerovFactor q (w.x (i + 2)) * (w.y (i + 2) - f 0 (w.x (i + 2)))) = _
  unfold numerovFactor
  linear_combination -hr

/-- **C110.** Global error: if the factors are positive and g is bounded by k² times the factor on the grid, the error of the table at a point t steps from the outer end is at most
(1 + k dx + k² dx²)^t times (the error of the two starting values + 7/720 M dx⁵ t), which is of order dx⁴ on a fixed interval. -/
theorem C110_global_error (q : WfParams) (hn : 1 ≤ q.n) (f : ℕ → ℝ → ℝ) (hf : ExactSolution q f) (M k : ℝ) (hk : 0 ≤ k) :
    let w := numerov q
    let z := fun i : ℤ => numerovFactor q (w.x i) * (w.y i - f 0 (w.x i))
    (∀ s, w.x 0 ≤ s → s ≤ w.x (w.rows - 1) → |f 6 s| ≤ M) →
    (∀ i, 0 ≤ i → i < w.rows → 0 < numerovFactor q (w.x i) ∧ |modelG q (w.x i ^ 2)| ≤ k ^ 2 * numerovFactor q (w.x i)) →
    ∀ t : ℕ, (t : ℤ) + 1 < w.rows →
      k * |z (w.rows - 1 - t)| ≤ (1 + wfDx * k + wfDx ^ 2 * k ^ 2) ^ t *
        (k * |z (w.rows - 1)| + |z (w.rows - 2) - z (w.rows - 1)| / wfDx + t * (7 / 720 * M * wfDx ^ 5)) := by
  intro w z hM hg t ht
  have hdx : (0 : ℝ) < wfDx := by unfold wfDx; norm_num
  obtain ⟨hr100, hx1, _⟩ := C52_numerov_normalised q hn
  have hr100 : 100 ≤ w.rows := hr100
  have hxx : w.x 0 ≤ w.x (w.rows - 1) := by
    show (numerovXmin q : ℝ) + ((0 : ℤ) : ℝ) * wfDx ≤ numerovXmin q + ((w.rows - 1 : ℤ) : ℝ) * wfDx
    have : ((0 : ℤ) : ℝ) ≤ ((w.rows - 1 : ℤ) : ℝ) := by exact_mod_cast (by omega : (0 : ℤ) ≤ w.rows - 1)
    nlinarith
  have hM0 : 0 ≤ M := (abs_nonneg _).trans (hM (w.x 0) le_rfl hxx)
  have hloc := C110_local_error q hn f hf M hM
  have key := gronwall2 (fun t : ℕ => z (w.rows - 1 - t)) (w.rows - 1).toNat wfDx k (7 / 720 * M * wfDx ^ 6) hdx hk (by positivity)
    (fun t ht => by
      have ht' : (t : ℤ) + 2 ≤ w.rows - 1 := by omega
      obtain ⟨i, hi⟩ : ∃ i : ℤ, i = w.rows - 1 - ((t + 2 : ℕ) : ℤ) := ⟨_, rfl⟩
      have e1 : w.rows - 1 - ((t + 1 : ℕ) : ℤ) = i + 1 := by rw [hi]; push_cast; ring
      have e2 : w.rows - 1 - (t : ℤ) = i + 2 := by rw [hi]; push_cast; ring
      have hi0 : 0 ≤ i := by rw [hi]; push_cast; omega
      have hi2 : i + 2 < w.rows := by rw [hi]; push_cast; omega
      show |z (w.rows - 1 - ((t + 2 : ℕ) : ℤ)) - 2 * z (w.rows - 1 - ((t + 1 : ℕ) : ℤ)) + z (w.rows - 1 - (t : ℤ))| ≤
        wfDx ^ 2 * k ^ 2 * |z (w.rows - 1 - ((t + 1 : ℕ) : ℤ))| + 7 / 720 * M * wfDx ^ 6
      rw [← hi, e1, e2]
      have l := hloc i hi0 hi2 (hg i hi0 (by omega)).1.ne'
      obtain ⟨p, b⟩ := hg (i + 1) (by omega) (by omega)
      have e3 : z i - 2 * z (i + 1) + z (i + 2) =
          (numerovFactor q (w.x i) * (w.y i - f 0 (w.x i)) - (2 + 5 / 6 * wfDx ^ 2 * modelG q (w.x (i + 1) ^ 2)) * (w.y (i + 1) - f 0 (w.x (i + 1))) +
            numerovFactor q (w.x (i + 2)) * (w.y (i + 2) - f 0 (w.x (i + 2)))) + wfDx ^ 2 * (modelG q (w.x (i + 1) ^ 2) * (w.y (i + 1) - f 0 (w.x (i + 1)))) := by
        show numerovFactor q (w.x i) * (w.y i - f 0 (w.x i)) - 2 * (numerovFactor q (w.x (i + 1)) * (w.y (i + 1) - f 0 (w.x (i + 1)))) +
          numerovFactor q (w.x (i + 2)) * (w.y (i + 2) - f 0 (w.x (i + 2))) = _
        unfold numerovFactor
        ring
      rw [e3]
      refine (abs_add_le _ _).trans ?_
      have e4 : |wfDx ^ 2 * (modelG q (w.x (i + 1) ^ 2) * (w.y (i + 1) - f 0 (w.x (i + 1))))| ≤ wfDx ^ 2 * k ^ 2 * |z (i + 1)| := by
        show _ ≤ wfDx ^ 2 * k ^ 2 * |numerovFactor q (w.x (i + 1)) * (w.y (i + 1) - f 0 (w.x (i + 1)))|
        rw [abs_mul, abs_mul, abs_mul, abs_of_pos p, abs_of_pos (by positivity : 0 < wfDx ^ 2)]
        have := mul_le_mul_of_nonneg_right b (abs_nonneg (w.y (i + 1) - f 0 (w.x (i + 1))))
        nlinarith [sq_nonneg wfDx]
      exact (add_le_add l e4).trans (by linarith)) t (by omega)
  simp only [Nat.cast_zero, sub_zero, Nat.cast_one] at key
  have e5 : w.rows - 1 - 1 = w.rows - 2 := by ring
  rw [e5] at key
  have e6 : 7 / 720 * M * wfDx ^ 6 / wfDx = 7 / 720 * M * wfDx ^ 5 := by field_simp
  rw [e6] at key
  refine le_trans ?_ key
  have : 0 ≤ |z (w.rows - 1 - ((t + 1 : ℕ) : ℤ)) - z (w.rows - 1 - (t : ℤ))| / wfDx := by positivity
  linarith

end PI
