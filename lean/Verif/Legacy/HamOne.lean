import Verif.Legacy.HamOneModel
import Verif.Legacy.Elem

/-!
# C86: the one-atom Hamiltonian of the legacy program
-/

namespace PI

open Matrix

variable {N : ℕ}

/-- Specification: the point of the scan at fraction t. -/
noncomputable def Vec3.lerp (a b : Vec3) (t : ℝ) : Vec3 := ⟨a.x + t * (b.x - a.x), a.y + t * (b.y - a.y), a.z + t * (b.z - a.z)⟩

/-- Specification: the fraction of the scan at a step. -/
noncomputable def OldScan.frac (s : OldScan) (step : ℕ) : ℝ := if s.nSteps > 1 then step / (s.nSteps - 1 : ℝ) else 0

/-- Specification: the diamagnetic tensors as the legacy program has them: for k = 2 without the elements between states of equal l, j and m. -/
noncomputable def diaOldT (C : FieldConsts) (radial : RadKey → ℝ) (me : Method) (st : Fin N → Option QN) (k : ℤ) : ℤ → Matrix (Fin N) (Fin N) ℂ :=
  tensorMat st fun a b => if k = 2 ∧ a.l = b.l ∧ a.j = b.j ∧ a.m = b.m then 0
    else 1 / (8 * C.mass) * (2 / 3 * C.elem.e * outVal (electricMultipole C.elem radial me a b 2 k))

/-- Specification: energies − E·d − B·μ and a diamagnetic part. -/
noncomputable def oneSpec (C : FieldConsts) (radial : RadKey → ℝ) (me : Method) (st : Fin N → Option QN) (e : Fin N → ℝ) (E B : Vec3)
    (D : ℤ → ℤ → Matrix (Fin N) (Fin N) ℂ) (dia : Bool) : Matrix (Fin N) (Fin N) ℂ :=
  Matrix.diagonal (fun i => (e i : ℂ)) - dotOp E (dipoleT C radial me st) - dotOp B (magneticT C radial me st) +
    (if dia then (diaKeys.map fun i => addCoef ⟨E, B, true, 0, 0, none⟩ (.d i.1 i.2) • D i.1 i.2).sum else 0)

theorem oldSpherical_eq (r : Bool) (v : Vec3) : oldSpherical r v = if r = true ∧ v.y ≠ 0 then .throw else .ok (sph v) := by
  unfold oldSpherical
  by_cases h : r = true ∧ v.y ≠ 0
  · rw [if_pos h, if_pos h]
  · rw [if_neg h, if_neg h]; rfl

theorem sph_lerp (a b : Vec3) (t : ℝ) (q : ℤ) : sph (a.lerp b t) q = sph a q + (t : ℂ) * (sph b q - sph a q) := by
  unfold sph Vec3.lerp
  by_cases h1 : q = 1
  · simp only [h1, if_true]
    apply Complex.ext <;> simp <;> ring
  · by_cases h2 : q = -1
    · simp only [h2, if_true]
      rw [if_neg (by norm_num), if_neg (by norm_num), if_neg (by norm_num)]
      apply Complex.ext <;> simp <;> ring
    · by_cases h3 : q = 0
      · simp only [h3]
        norm_num
        apply Complex.ext <;> simp
      · simp [h1, h2, h3]

theorem lowerView_of_lower (M S : Matrix (Fin N) (Fin N) ℂ) (h : ∀ r c, ¬ r < c → M r c = S r c) (hS : S.IsHermitian) : lowerView M = S := by
  have hh : ∀ r c, (starRingEnd ℂ) (S c r) = S r c := fun r c => by
    have := congrFun (congrFun hS r) c
    rw [Matrix.conjTranspose_apply] at this
    exact this
  funext r c
  unfold lowerView
  by_cases h1 : c < r
  · rw [if_pos h1]; exact h r c (by omega)
  · rw [if_neg h1]
    by_cases h2 : r = c
    · subst h2
      rw [if_pos rfl, h r r (lt_irrefl r)]
      exact Complex.conj_eq_iff_re.mp (hh r r)
    · rw [if_neg h2, h c r (by omega)]; exact hh r c

theorem oldEntries_coef (sp : String) (b : Fin N → Old1) (hit : Old1 → Old1 → Bool) (val : Old1 → Old1 → ℝ) (f : QN → QN → ℝ) (q : ℤ) (z : ℂ) (r c : Fin N)
    (hrc : ¬ r < c)
    (h1 : hit (b r) (b c) = true → (b r).m - (b c).m = 2 * q ∧ val (b r) (b c) = f ((b r).qn sp) ((b c).qn sp))
    (h2 : hit (b r) (b c) = false → (b r).m - (b c).m = 2 * q → z ≠ 0 → f ((b r).qn sp) ((b c).qn sp) = 0)
    (h3 : hit (b r) (b c) = true → val (b r) (b c) = 0 ∨ |val (b r) (b c)| > 1e-32) :
    z * oldEntries b hit val r c = z * tensorMat (fun i => some ((b i).qn sp)) f q r c := by
  by_cases hz : z = 0
  · simp [hz]
  congr 1
  unfold oldEntries tensorMat
  rw [if_neg hrc]
  dsimp only
  show _ = if (b r).m - (b c).m = 2 * q then _ else _
  cases hh : hit (b r) (b c) with
  | true =>
    obtain ⟨a1, a2⟩ := h1 hh
    rw [if_pos a1]
    rcases h3 hh with h | h
    · rw [if_neg (by rw [h]; norm_num), ← a2, h]; simp
    · rw [if_pos ⟨rfl, h⟩, a2]
  | false =>
    rw [if_neg (by simp)]
    by_cases hm : (b r).m - (b c).m = 2 * q
    · rw [if_pos hm, h2 hh hm hz]; simp
    · rw [if_neg hm]

/-! ## Hermiticity of the specification -/

theorem tensorMat_conj (st : Fin N → Option QN) (f : QN → QN → ℝ) (hp : ∀ i a, st i = some a → ∀ j b, st j = some b → f b a = sgn ((a.m - b.m) / 2) * f a b) (q : ℤ) :
    (tensorMat st f q)ᴴ = ((sgn q : ℝ) : ℂ) • tensorMat st f (-q) := by
  funext r c
  rw [Matrix.conjTranspose_apply, Matrix.smul_apply]
  unfold tensorMat
  cases hr : st r with
  | none => cases hc : st c <;> simp
  | some a =>
    cases hc : st c with
    | none => simp
    | some b =>
      dsimp only
      have := hp r a hr c b hc
      by_cases hm : b.m - a.m = 2 * q
      · rw [if_pos hm, if_pos (by omega), this]
        have : (a.m - b.m) / 2 = -q := by omega
        rw [this]
        have hs : sgn (-q) = sgn q := by unfold sgn; congr 1; apply propext; omega
        rw [hs]
        simp
      · rw [if_neg hm, if_neg (by omega)]; simp

theorem dotOp_herm (v : Vec3) (T : ℤ → Matrix (Fin N) (Fin N) ℂ) (h : ∀ q, (T q)ᴴ = ((sgn q : ℝ) : ℂ) • T (-q)) : (dotOp v T).IsHermitian := by
  have h0 := h 0
  have h1 := h 1
  have hm := h (-1)
  have s1 : sgn 1 = -1 := by simp [sgn]
  have sm : sgn (-1) = -1 := by simp [sgn]
  have s0 : sgn 0 = 1 := by simp [sgn]
  rw [s0] at h0
  rw [s1] at h1
  rw [sm] at hm
  norm_num at h0 h1 hm
  unfold Matrix.IsHermitian
  rw [dotOp_eq, Matrix.conjTranspose_sub, Matrix.conjTranspose_sub, Matrix.conjTranspose_smul, Matrix.conjTranspose_smul, Matrix.conjTranspose_smul, h0, h1, hm]
  have a1 : star (sph v 0) = sph v 0 := sph_zero_conj v
  have a2 : star (sph v (-1)) = -sph v 1 := by rw [sph_plus v, neg_neg]; rfl
  have a3 : star (sph v 1) = -sph v (-1) := by rw [sph_minus v, neg_neg]; rfl
  rw [a1, a2, a3]
  module

theorem dia_sum_herm (E B : Vec3) (D : ℤ → ℤ → Matrix (Fin N) (Fin N) ℂ) (h : ∀ k q, (D k q)ᴴ = ((sgn q : ℝ) : ℂ) • D k (-q)) :
    ((diaKeys.map fun i => addCoef ⟨E, B, true, 0, 0, none⟩ (.d i.1 i.2) • D i.1 i.2).sum).IsHermitian := by
  have a1 : (starRingEnd ℂ) (sph B 0) = sph B 0 := sph_zero_conj B
  have a2 : (starRingEnd ℂ) (sph B (-1)) = -sph B 1 := by rw [sph_plus B, neg_neg]
  have a3 : (starRingEnd ℂ) (sph B 1) = -sph B (-1) := by rw [sph_minus B, neg_neg]
  have s1 : sgn 1 = -1 := by simp [sgn]
  have sm : sgn (-1) = -1 := by simp [sgn]
  have s0 : sgn 0 = 1 := by simp [sgn]
  have s2 : sgn 2 = 1 := by simp [sgn]
  have sm2 : sgn (-2) = 1 := by simp [sgn]
  have d00 := h 0 0
  have d20 := h 2 0
  have d21 := h 2 1
  have d2m := h 2 (-1)
  have d22 := h 2 2
  have d2mm := h 2 (-2)
  rw [s0] at d00 d20
  rw [s1] at d21
  rw [sm] at d2m
  rw [s2] at d22
  rw [sm2] at d2mm
  norm_num at d00 d20 d21 d2m d22 d2mm
  unfold Matrix.IsHermitian
  simp only [diaKeys, List.map_cons, List.map_nil, List.sum_cons, List.sum_nil, addCoef, diaTerm]
  norm_num
  simp only [d00, d20, d21, d2m, d22, d2mm]
  simp only [a1, a2, a3]
  module

/-! ## The entries -/

section
variable (U : Units) (J : RadKey → ℝ) (me : Method) (sp : String)

/-- No matrix element is non-zero but below the tolerance of 1e-32. -/
def NoTinyElements (w : List Old1) : Prop :=
  ∀ a ∈ w, ∀ b ∈ w,
    (valE U.consts (U.radial J) me (a.qn sp) (b.qn sp) = 0 ∨ |valE U.consts (U.radial J) me (a.qn sp) (b.qn sp)| > 1e-32) ∧
    (valB U.consts (U.radial J) me (a.qn sp) (b.qn sp) = 0 ∨ |valB U.consts (U.radial J) me (a.qn sp) (b.qn sp)| > 1e-32) ∧
    ∀ k ∈ [(0 : ℤ), 2], valD U.consts (U.radial J) me k (a.qn sp) (b.qn sp) = 0 ∨ |valD U.consts (U.radial J) me k (a.qn sp) (b.qn sp)| > 1e-32

theorem oldSelQ_m {a b : Old1} {k q : ℤ} (h : oldSelMultipoleQ a b k q = true) : a.m - b.m = 2 * q := by
  simp only [oldSelMultipoleQ, Bool.and_eq_true, decide_eq_true_eq] at h
  have := h.1.1.2
  omega

theorem oldSelM_m {a b : Old1} {q : ℤ} (h : oldSelMomentumQ a b q = true) : a.m - b.m = 2 * q ∧ a.l = b.l := by
  simp only [oldSelMomentumQ, Bool.and_eq_true, decide_eq_true_eq] at h
  have := h.1.2
  exact ⟨by omega, h.1.1.1⟩

theorem elKey_iff (x : OldExist) (a b : Old1) (q : ℤ) (hq : q = 0 ∨ q = 1 ∨ q = -1) :
    (x.elKey a b == some q) = ((if q = 0 then x.E0 else x.E1) && oldSelMultipoleQ a b 1 q) := by
  have e : ∀ q', oldSelMultipoleQ a b 1 q' = true → a.m - b.m = 2 * q' := fun q' h => oldSelQ_m h
  have e0 := e 0
  have e1 := e 1
  have em := e (-1)
  unfold OldExist.elKey
  cases h0 : oldSelMultipoleQ a b 1 0 <;> cases h1 : oldSelMultipoleQ a b 1 1 <;> cases hm : oldSelMultipoleQ a b 1 (-1) <;>
    simp only [h0, h1, hm, forall_true_left] at e0 e1 em <;> first
    | (exfalso; omega)
    | (rcases hq with rfl | rfl | rfl <;> cases x.E0 <;> cases x.E1 <;> simp [h0, h1, hm])

theorem magKey_iff (x : OldExist) (a b : Old1) (q : ℤ) (hq : q = 0 ∨ q = 1 ∨ q = -1) :
    (x.magKey a b == some q) = ((if q = 0 then x.B0 else x.B1) && oldSelMomentumQ a b q) := by
  have e : ∀ q', oldSelMomentumQ a b q' = true → a.m - b.m = 2 * q' := fun q' h => (oldSelM_m h).1
  have e0 := e 0
  have e1 := e 1
  have em := e (-1)
  unfold OldExist.magKey
  cases h0 : oldSelMomentumQ a b 0 <;> cases h1 : oldSelMomentumQ a b 1 <;> cases hm : oldSelMomentumQ a b (-1) <;>
    simp only [h0, h1, hm, forall_true_left] at e0 e1 em <;> first
    | (exfalso; omega)
    | (rcases hq with rfl | rfl | rfl <;> cases x.B0 <;> cases x.B1 <;> simp [h0, h1, hm])

/-- The flags under which the diamagnetic elements of a component are collected. -/
def OldExist.diaFlag (x : OldExist) (q : ℤ) : Bool :=
  if q = 0 then x.B0 || x.B1 else if q = 1 ∨ q = -1 then x.B0 && x.B1 else x.B1

theorem diaKey_iff (x : OldExist) (a b : Old1) (i : ℤ × ℤ) (hi : i ∈ diaKeys) :
    (x.diaKey a b == some i) = (x.dia && x.diaFlag i.2 && oldSelMultipoleQ a b i.1 i.2 && !(decide (i = (2, 0)) && oldSelMultipoleQ a b 0 0)) := by
  have e : ∀ k q', oldSelMultipoleQ a b k q' = true → a.m - b.m = 2 * q' := fun k q' h => oldSelQ_m h
  have e00 := e 0 0
  have e0 := e 2 0
  have e1 := e 2 1
  have em := e 2 (-1)
  have e2 := e 2 2
  have em2 := e 2 (-2)
  unfold OldExist.diaKey
  simp only [diaKeys, List.mem_cons, List.not_mem_nil, or_false] at hi
  obtain ⟨E0, E1, B0, B1, d⟩ := x
  cases h00 : oldSelMultipoleQ a b 0 0 <;>
  cases h0 : oldSelMultipoleQ a b 2 0 <;> cases h1 : oldSelMultipoleQ a b 2 1 <;> cases hm : oldSelMultipoleQ a b 2 (-1) <;>
    cases h2 : oldSelMultipoleQ a b 2 2 <;> cases hm2 : oldSelMultipoleQ a b 2 (-2) <;>
    simp only [h00, h0, h1, hm, h2, hm2, forall_true_left] at e00 e0 e1 em e2 em2 <;> first
    | (exfalso; omega)
    | (rcases hi with rfl | rfl | rfl | rfl | rfl | rfl <;> cases B0 <;> cases B1 <;> cases d <;> simp [OldExist.diaFlag, h00, h0, h1, hm, h2, hm2])

theorem mem_pre (x : OldExist) :
    (∀ q, (q = 0 ∨ q = 1 ∨ q = -1) → (if q = 0 then x.E0 else x.E1) = true → preElectric q ∈ x.pre) ∧
    (∀ q, (q = 0 ∨ q = 1 ∨ q = -1) → (if q = 0 then x.B0 else x.B1) = true → preMagnetic q ∈ x.pre) ∧
    (∀ i ∈ diaKeys, (x.dia && x.diaFlag i.2) = true → preDia i.1 i.2 ∈ x.pre) := by
  obtain ⟨E0, E1, B0, B1, d⟩ := x
  refine ⟨?_, ?_, ?_⟩
  · rintro q (rfl | rfl | rfl) h <;> simp at h <;> simp [OldExist.pre, h]
  · rintro q (rfl | rfl | rfl) h <;> simp at h <;> simp [OldExist.pre, h]
  · intro i hi h
    simp only [diaKeys, List.mem_cons, List.not_mem_nil, or_false] at hi
    rcases hi with rfl | rfl | rfl | rfl | rfl | rfl <;> simp [OldExist.diaFlag] at h <;> simp [OldExist.pre, h]

theorem same_level (a b : Old1) : oldSelMultipoleQ a b 0 0 = true ↔ a.l = b.l ∧ a.j = b.j ∧ a.m = b.m ∧ 0 ≤ a.j + b.j := by
  simp only [oldSelMultipoleQ, Bool.and_eq_true, decide_eq_true_eq, Bool.not_eq_true', Bool.and_eq_false_iff, decide_eq_false_iff_not]
  constructor
  · rintro ⟨⟨⟨⟨⟨h1, -⟩, h3, h4⟩, h5⟩, -⟩, -⟩
    rw [abs_le] at h1 h3
    refine ⟨?_, ?_, ?_, ?_⟩ <;> omega
  · rintro ⟨h1, h2, h3, h4⟩
    rw [h1, h2, h3]
    simp
    omega

/-- The lower triangle of the total matrix. -/
theorem oldTotal_lower (hU : U.um ≠ 0 ∧ U.Vcm ≠ 0 ∧ U.GHz ≠ 0 ∧ U.G ≠ 0) (w : List Old1) (hw : ∀ a ∈ w, OldValid a) (ht : NoTinyElements U J me sp w)
    (db : OldDb) (hdb : DbExact U (oldIntegral me sp J) db) (x : OldExist) (e : Fin w.length → ℝ) (E B : Vec3)
    (hE0 : sph E 0 ≠ 0 → x.E0 = true) (hE1 : sph E 1 ≠ 0 → x.E1 = true) (hB0 : sph B 0 ≠ 0 → x.B0 = true) (hB1 : sph B 1 ≠ 0 → x.B1 = true) :
    ∃ s, precalcAll U (some (oldIntegral me sp J)) w x.pre (fun _ => none, db) = .ok s ∧ ∀ r c, ¬ r < c →
      oldTotal U x s.1 (fun i => w.get i) e (sph E) (sph B) r c
      = oneSpec U.consts (U.radial J) me (fun i => some ((w.get i).qn sp)) e E B (diaOldT U.consts (U.radial J) me fun i => some ((w.get i).qn sp)) x.dia r c := by
  obtain ⟨s, h1, h2⟩ := C84_elements U J me sp hU w hw x.pre db hdb
  refine ⟨s, h1, ?_⟩
  intro r c hrc
  have hr : w.get r ∈ w := List.get_mem _ _
  have hc : w.get c ∈ w := List.get_mem _ _
  set a := w.get r with ha
  set b := w.get c with hb
  have va := Old1.qn_physical sp a (hw a hr)
  have vb := Old1.qn_physical sp b (hw b hc)
  have hEm : sph E (-1) ≠ 0 → x.E1 = true := by
    intro h; apply hE1; intro h'; apply h; rw [sph_minus, h']; simp
  have hBm : sph B (-1) ≠ 0 → x.B1 = true := by
    intro h; apply hB1; intro h'; apply h; rw [sph_minus, h']; simp
  obtain ⟨m1, m2, m3⟩ := mem_pre x
  have tE := multipole_tensorOK U.consts.elem (U.radial J) me (a.qn sp) (b.qn sp) 1 1 (by norm_num) va vb rfl rfl
  have tB := magnetic_tensorOK U.consts (U.radial J) me (a.qn sp) (b.qn sp) va vb rfl rfl
  have mrel : ∀ q : ℤ, a.m - b.m = 2 * q → (a.qn sp).m = (b.qn sp).m + 2 * q := by
    intro q h; show a.m = b.m + 2 * q; omega
  -- electric
  have el : ∀ q (z : ℂ), (q = 0 ∨ q = 1 ∨ q = -1) → (z ≠ 0 → (if q = 0 then x.E0 else x.E1) = true) →
      z * oldEntries (fun i => w.get i) (fun a a' => x.elKey a a' == some q) (fun a a' => oldMultipole s.1 a a' 1) r c
      = z * dipoleT U.consts (U.radial J) me (fun i => some ((w.get i).qn sp)) q r c := by
    intro q z hq hz
    have hval : (x.elKey a b == some q) = true → valE U.consts (U.radial J) me (a.qn sp) (b.qn sp) = oldMultipole s.1 a b 1 := by
      intro h
      rw [elKey_iff x a b q hq, Bool.and_eq_true] at h
      have := (h2 a hr b hc (preElectric q) (m1 q hq h.1) (by
        intro q' hq'
        simp only [preElectric, Option.mem_def, Option.some.injEq] at hq'
        subst hq'; exact oldSelQ_m h.2)).1 rfl (by simp [preElectric]) rfl
      show outVal _ = _
      rw [show (preElectric q).kappa = 1 from rfl] at this
      rw [this]; rfl
    refine oldEntries_coef sp _ _ _ _ q z r c hrc ?_ ?_ ?_
    · intro h
      refine ⟨?_, (hval h).symm⟩
      rw [elKey_iff x _ _ q hq, Bool.and_eq_true] at h
      exact oldSelQ_m h.2
    · intro h hm hz'
      rw [elKey_iff x _ _ q hq, hz hz', Bool.true_and] at h
      exact tE.no q h (mrel q hm)
    · intro h
      have := (ht a hr b hc).1
      rw [hval h] at this
      exact this
  have mg : ∀ q (z : ℂ), (q = 0 ∨ q = 1 ∨ q = -1) → (z ≠ 0 → (if q = 0 then x.B0 else x.B1) = true) →
      z * oldEntries (fun i => w.get i) (fun a a' => x.magKey a a' == some q) (oldMagnetic U s.1) r c
      = -(z * magneticT U.consts (U.radial J) me (fun i => some ((w.get i).qn sp)) q r c) := by
    intro q z hq hz
    have hval : (x.magKey a b == some q) = true → magSpec U.consts (U.radial J) me (a.qn sp) (b.qn sp) = -oldMagnetic U s.1 a b ∧
        valB U.consts (U.radial J) me (a.qn sp) (b.qn sp) = -oldMagnetic U s.1 a b := by
      intro h
      rw [magKey_iff x a b q hq, Bool.and_eq_true] at h
      have hl := (oldSelM_m h.2).2
      have := (h2 a hr b hc (preMagnetic q) (m2 q hq h.1) (by
        intro q' hq'
        simp only [preMagnetic, Option.mem_def, Option.some.injEq] at hq'
        subst hq'; exact (oldSelM_m h.2).1)).2.1 rfl rfl rfl hl
      have e2 : valB U.consts (U.radial J) me (a.qn sp) (b.qn sp) = -oldMagnetic U s.1 a b := by
        show outVal _ = _
        rw [this]; rfl
      refine ⟨?_, e2⟩
      unfold magSpec
      rw [if_pos (show (a.qn sp).l = (b.qn sp).l from hl), e2]
    have key := oldEntries_coef sp (fun i => w.get i) (fun a a' => x.magKey a a' == some q) (oldMagnetic U s.1)
      (fun p p' => -magSpec U.consts (U.radial J) me p p') q z r c hrc ?_ ?_ ?_
    · rw [key, ← mul_neg]
      congr 1
      unfold magneticT tensorMat
      dsimp only
      split_ifs <;> simp
    · intro h
      refine ⟨?_, ?_⟩
      · rw [magKey_iff x _ _ q hq, Bool.and_eq_true] at h
        exact (oldSelM_m h.2).1
      · have := (hval h).1
        show oldMagnetic U s.1 a b = -magSpec U.consts (U.radial J) me (a.qn sp) (b.qn sp)
        rw [this, neg_neg]
    · intro h hm hz'
      rw [magKey_iff x _ _ q hq, hz hz', Bool.true_and] at h
      have := tB.no q h (mrel q hm)
      show -magSpec U.consts (U.radial J) me (a.qn sp) (b.qn sp) = 0
      rw [this, neg_zero]
    · intro h
      have := (ht a hr b hc).2.1
      rw [(hval h).2, neg_eq_zero, abs_neg] at this
      exact this
  have dg : ∀ i ∈ diaKeys, ∀ z : ℂ, x.dia = true → (z ≠ 0 → x.diaFlag i.2 = true) →
      z * oldEntries (fun i => w.get i) (fun a a' => x.diaKey a a' == some i) (fun a a' => oldDiamagnetism U s.1 a a' i.1) r c
      = z * diaOldT U.consts (U.radial J) me (fun i => some ((w.get i).qn sp)) i.1 i.2 r c := by
    intro i hi z hd hz
    have hk : 0 ≤ i.1 := by
      simp only [diaKeys, List.mem_cons, List.not_mem_nil, or_false] at hi
      rcases hi with rfl | rfl | rfl | rfl | rfl | rfl <;> norm_num
    have tD := dia_tensorOK U.consts (U.radial J) me (a.qn sp) (b.qn sp) i.1 hk va vb rfl rfl
    have hval : (x.diaKey a b == some i) = true → valD U.consts (U.radial J) me i.1 (a.qn sp) (b.qn sp) = oldDiamagnetism U s.1 a b i.1 := by
      intro h
      rw [diaKey_iff x a b i hi, Bool.and_eq_true, Bool.and_eq_true] at h
      exact (h2 a hr b hc (preDia i.1 i.2) (m3 i hi h.1.1) (by
        intro q' hq'
        simp only [preDia, Option.mem_def, Option.some.injEq] at hq'
        subst hq'; exact oldSelQ_m h.1.2)).2.2 rfl hk rfl
    have jn : 0 ≤ a.j + b.j := by
      have h1 := va.2.2.1; have h2 := vb.2.2.1
      have h3 : (0 : ℤ) ≤ a.j := le_trans (abs_nonneg _) h1
      have h4 : (0 : ℤ) ≤ b.j := le_trans (abs_nonneg _) h2
      omega
    refine oldEntries_coef sp _ _ _ _ i.2 z r c hrc ?_ ?_ ?_
    · intro h
      have h' := h
      rw [diaKey_iff x _ _ i hi, Bool.and_eq_true, Bool.and_eq_true] at h'
      refine ⟨oldSelQ_m h'.1.2, ?_⟩
      rw [if_neg]
      · exact (hval h).symm
      · rintro ⟨k2, e1, e2, e3⟩
        have hs : oldSelMultipoleQ a b 0 0 = true := (same_level a b).mpr ⟨e1, e2, e3, jn⟩
        have hq : i.2 = 0 := by
          have := oldSelQ_m h'.1.2
          have e3' : a.m = b.m := e3
          simp only [← ha, ← hb] at this
          omega
        have : i = (2, 0) := by rw [← k2, ← hq]
        have h3 := h'.2
        simp only [← ha, ← hb, hs, this] at h3
        simp at h3
    · intro h hm hz'
      rw [diaKey_iff x _ _ i hi, hd, hz hz', Bool.true_and, Bool.true_and, Bool.and_eq_false_iff] at h
      rcases h with h | h
      · have := tD.no i.2 h (mrel _ hm)
        split_ifs
        · rfl
        · exact this
      · simp only [Bool.not_eq_false', Bool.and_eq_true, decide_eq_true_eq] at h
        obtain ⟨hi', hs⟩ := h
        obtain ⟨e1, e2, e3, -⟩ := (same_level a b).mp hs
        rw [if_pos ⟨by rw [hi'], e1, e2, e3⟩]
    · intro h
      have := (ht a hr b hc).2.2 i.1 (by
        simp only [diaKeys, List.mem_cons, List.not_mem_nil, or_false] at hi
        rcases hi with rfl | rfl | rfl | rfl | rfl | rfl <;> simp)
      rw [hval h] at this
      exact this
  have E0 := el 0 (sph E 0) (by norm_num) (by simpa using hE0)
  have E1 := el 1 (sph E (-1)) (by norm_num) (by simpa using hEm)
  have Em := el (-1) (sph E 1) (by norm_num) (by simpa using hE1)
  have B0 := mg 0 (sph B 0) (by norm_num) (by simpa using hB0)
  have B1 := mg 1 (sph B (-1)) (by norm_num) (by simpa using hBm)
  have Bm := mg (-1) (sph B 1) (by norm_num) (by simpa using hB1)
  have hdia : x.dia = false → ∀ i ∈ diaKeys, ∀ z : ℂ,
      z * oldEntries (fun i => w.get i) (fun a a' => x.diaKey a a' == some i) (fun a a' => oldDiamagnetism U s.1 a a' i.1) r c = 0 := by
    intro hd i hi z
    unfold oldEntries
    rw [if_neg hrc, if_neg]
    · ring
    · rintro ⟨h, -⟩
      have h : (x.diaKey a b == some i) = true := h
      rw [diaKey_iff x _ _ i hi, hd] at h
      simp at h
  unfold oldTotal oneSpec
  dsimp only
  simp only [Matrix.add_apply, Matrix.sub_apply, Matrix.smul_apply, smul_eq_mul, dotOp_eq]
  rw [E0, E1, Em, B0, B1, Bm]
  cases hd : x.dia with
  | false =>
    have z00 := hdia hd (0, 0) (by simp [diaKeys])
    have z20 := hdia hd (2, 0) (by simp [diaKeys])
    have z21 := hdia hd (2, 1) (by simp [diaKeys])
    have z2m := hdia hd (2, -1) (by simp [diaKeys])
    have z22 := hdia hd (2, 2) (by simp [diaKeys])
    have z2mm := hdia hd (2, -2) (by simp [diaKeys])
    dsimp only at z00 z20 z21 z2m z22 z2mm
    rw [z00, z20, z21, z2m, z22, z2mm]
    simp only [Bool.false_eq_true, if_false, Matrix.zero_apply]
    ring
  | true =>
    have nz : ∀ u v : ℂ, u * v ≠ 0 → u ≠ 0 ∧ v ≠ 0 := fun u v h => ⟨left_ne_zero_of_mul h, right_ne_zero_of_mul h⟩
    have or0 : ∀ z : ℂ, (sph B 0 = 0 → sph B 1 = 0 → z = 0) → z ≠ 0 → (x.B0 || x.B1) = true := by
      intro z h hz
      by_contra hh
      simp only [Bool.or_eq_true, not_or] at hh
      exact hz (h (by by_contra h0; exact hh.1 (hB0 h0)) (by by_contra h0; exact hh.2 (hB1 h0)))
    have z00 := dg (0, 0) (by simp [diaKeys]) (sph B 0 * sph B 0 - 2 * sph B 1 * sph B (-1)) hd (or0 _ (by intro h h'; rw [h, h']; ring))
    have z20 := dg (2, 0) (by simp [diaKeys]) (sph B 0 * sph B 0 + sph B 1 * sph B (-1)) hd (or0 _ (by intro h h'; rw [h, h']; ring))
    have z21 := dg (2, 1) (by simp [diaKeys]) ((Real.sqrt 3 : ℝ) * sph B 0 * sph B (-1)) hd (by
      intro h
      have h1 := nz _ _ h
      have h2 := nz _ _ h1.1
      simp [OldExist.diaFlag, hB0 h2.2, hBm h1.2])
    have z2m := dg (2, -1) (by simp [diaKeys]) ((Real.sqrt 3 : ℝ) * sph B 0 * sph B 1) hd (by
      intro h
      have h1 := nz _ _ h
      have h2 := nz _ _ h1.1
      simp [OldExist.diaFlag, hB0 h2.2, hB1 h1.2])
    have z22 := dg (2, 2) (by simp [diaKeys]) ((Real.sqrt 1.5 : ℝ) * sph B (-1) * sph B (-1)) hd (by
      intro h
      have h1 := nz _ _ h
      simp [OldExist.diaFlag, hBm h1.2])
    have z2mm := dg (2, -2) (by simp [diaKeys]) ((Real.sqrt 1.5 : ℝ) * sph B 1 * sph B 1) hd (by
      intro h
      have h1 := nz _ _ h
      simp [OldExist.diaFlag, hB1 h1.2])
    dsimp only at z00 z20 z21 z2m z22 z2mm
    rw [z00, z20, z21, z2m, z22, z2mm]
    simp only [if_true, diaKeys, List.map_cons, List.map_nil, List.sum_cons, List.sum_nil, Matrix.add_apply, Matrix.smul_apply, smul_eq_mul, addCoef, diaTerm,
      Matrix.zero_apply]
    norm_num
    ring

theorem spec_herm (w : List Old1) (hw : ∀ a ∈ w, OldValid a) (e : Fin w.length → ℝ) (E B : Vec3) (dia : Bool) :
    (oneSpec U.consts (U.radial J) me (fun i => some ((w.get i).qn sp)) e E B (diaOldT U.consts (U.radial J) me fun i => some ((w.get i).qn sp)) dia).IsHermitian := by
  have phys : ∀ (i : Fin w.length) a, (fun i : Fin w.length => some ((w.get i).qn sp)) i = some a → a.Physical ∧ a.species = sp ∧ a.s = 1 := by
    intro i a h
    obtain rfl := Option.some.inj h
    exact ⟨Old1.qn_physical sp _ (hw _ (List.get_mem _ _)), rfl, rfl⟩
  have hE := tensorMat_conj (fun i : Fin w.length => some ((w.get i).qn sp)) (fun a b => outVal (electricMultipole U.consts.elem (U.radial J) me a b 1 1)) (by
    intro i a ha j b hb
    obtain ⟨h1, h2, h3⟩ := phys i a ha
    obtain ⟨k1, k2, k3⟩ := phys j b hb
    exact (multipole_tensorOK U.consts.elem (U.radial J) me a b 1 1 (by norm_num) h1 k1 (by rw [h2, k2]) (by rw [h3, k3])).herm)
  have hB := tensorMat_conj (fun i : Fin w.length => some ((w.get i).qn sp)) (magSpec U.consts (U.radial J) me) (by
    intro i a ha j b hb
    obtain ⟨h1, h2, h3⟩ := phys i a ha
    obtain ⟨k1, k2, k3⟩ := phys j b hb
    exact (magnetic_tensorOK U.consts (U.radial J) me a b h1 k1 (by rw [h2, k2]) (by rw [h3, k3])).herm)
  have hD : ∀ k ∈ [(0 : ℤ), 2], ∀ q, (diaOldT U.consts (U.radial J) me (fun i : Fin w.length => some ((w.get i).qn sp)) k q)ᴴ
      = ((sgn q : ℝ) : ℂ) • diaOldT U.consts (U.radial J) me (fun i : Fin w.length => some ((w.get i).qn sp)) k (-q) := by
    intro k hk
    have hk0 : 0 ≤ k := by
      simp only [List.mem_cons, List.not_mem_nil, or_false] at hk
      omega
    refine tensorMat_conj (fun i : Fin w.length => some ((w.get i).qn sp)) _ ?_
    intro i a ha j b hb
    obtain ⟨h1, h2, h3⟩ := phys i a ha
    obtain ⟨k1, k2, k3⟩ := phys j b hb
    have := (dia_tensorOK U.consts (U.radial J) me a b k hk0 h1 k1 (by rw [h2, k2]) (by rw [h3, k3])).herm
    unfold valD at this
    by_cases h : k = 2 ∧ a.l = b.l ∧ a.j = b.j ∧ a.m = b.m
    · rw [if_pos h, if_pos ⟨h.1, h.2.1.symm, h.2.2.1.symm, h.2.2.2.symm⟩]; ring
    · rw [if_neg h, if_neg (fun h' => h ⟨h'.1, h'.2.1.symm, h'.2.2.1.symm, h'.2.2.2.symm⟩)]
      exact this
  unfold oneSpec
  refine Matrix.IsHermitian.add (Matrix.IsHermitian.sub (Matrix.IsHermitian.sub ?_ (dotOp_herm E _ hE)) (dotOp_herm B _ hB)) ?_
  · unfold Matrix.IsHermitian
    rw [Matrix.diagonal_conjTranspose]
    congr 1
    funext i
    exact Complex.conj_ofReal _
  · cases dia with
    | false => simp
    | true =>
      have := dia_sum_herm E B (fun k q => if k = 0 ∨ k = 2 then diaOldT U.consts (U.radial J) me (fun i : Fin w.length => some ((w.get i).qn sp)) k q else 0) (by
        intro k q
        by_cases hk : k = 0 ∨ k = 2
        · rw [if_pos hk, if_pos hk]
          exact hD k (by rcases hk with rfl | rfl <;> simp) q
        · rw [if_neg hk, if_neg hk]; simp)
      rw [if_pos rfl]
      simpa [diaKeys] using this

/-- **C86.** For every basis, energy window, initial states, field scan and step, with the tables of matrix elements exact (see C85): the matrix the legacy program
diagonalises is that of energies (relative to the mean of the initial states) − E·d − B·μ at the linearly interpolated fields, between the states in the window; the
real type throws exactly if a field has a y component. With diamagnetism the matrix contains the tensors of `diaOldT`. -/
theorem C86_hamiltonian (hU : U.um ≠ 0 ∧ U.Vcm ≠ 0 ∧ U.GHz ≠ 0 ∧ U.G ≠ 0) (energy : Old1 → ℝ) (init : List Old1) (deltaE : ℝ) (basis : List Old1)
    (hb : ∀ a ∈ basis, OldValid a) (ht : NoTinyElements U J me sp (oldWindow energy init deltaE basis)) (db : OldDb)
    (hdb : DbExact U (oldIntegral me sp J) db) (s : OldScan) :
    ((s.isReal = true ∧ (s.minE.y ≠ 0 ∨ s.maxE.y ≠ 0 ∨ s.minB.y ≠ 0 ∨ s.maxB.y ≠ 0)) →
      oldHamOne U (some (oldIntegral me sp J)) energy init deltaE basis db s = .throw) ∧
    (¬ (s.isReal = true ∧ (s.minE.y ≠ 0 ∨ s.maxE.y ≠ 0 ∨ s.minB.y ≠ 0 ∨ s.maxB.y ≠ 0)) →
      ∃ H, oldHamOne U (some (oldIntegral me sp J)) energy init deltaE basis db s = .ok H ∧ ∀ step,
        H step = oneSpec U.consts (U.radial J) me (fun i => some (((oldWindow energy init deltaE basis).get i).qn sp))
          (fun i => energy ((oldWindow energy init deltaE basis).get i) - (init.map energy).sum / init.length)
          (s.minE.lerp s.maxE (s.frac step)) (s.minB.lerp s.maxB (s.frac step))
          (diaOldT U.consts (U.radial J) me fun i => some (((oldWindow energy init deltaE basis).get i).qn sp)) s.dia) := by
  have hw : ∀ a ∈ oldWindow energy init deltaE basis, OldValid a := fun a ha => hb a (List.mem_filter.mp ha).1
  constructor
  · rintro ⟨h1, h2⟩
    unfold oldHamOne
    simp only [oldSpherical_eq, h1, true_and]
    by_cases a1 : s.minE.y ≠ 0
    · rw [if_pos a1]; rfl
    rw [if_neg a1]
    refine (Out.ok_bind _ _).trans ?_
    by_cases a2 : s.maxE.y ≠ 0
    · rw [if_pos a2]; rfl
    rw [if_neg a2]
    refine (Out.ok_bind _ _).trans ?_
    by_cases a3 : s.minB.y ≠ 0
    · rw [if_pos a3]; rfl
    rw [if_neg a3]
    refine (Out.ok_bind _ _).trans ?_
    have a4 : s.maxB.y ≠ 0 := by
      rcases h2 with h | h | h | h
      · exact absurd h a1
      · exact absurd h a2
      · exact absurd h a3
      · exact h
    rw [if_pos a4]; rfl
  · intro h
    set x := OldExist.make (sph s.minE) (sph s.maxE) (sph s.minB) (sph s.maxB) s.dia with hx
    have ex : ∀ (a b : Vec3) (t : ℝ) (q : ℤ), sph (a.lerp b t) q ≠ 0 → ‖sph a q‖ ≠ 0 ∨ ‖sph b q‖ ≠ 0 := by
      intro a b t q hne
      by_contra hh
      push Not at hh
      rw [norm_eq_zero, norm_eq_zero] at hh
      apply hne
      rw [sph_lerp, hh.1, hh.2]; ring
    have low := fun t => oldTotal_lower U J me sp hU (oldWindow energy init deltaE basis) hw ht db hdb x
      (fun i => energy ((oldWindow energy init deltaE basis).get i) - (init.map energy).sum / init.length)
      (s.minE.lerp s.maxE t) (s.minB.lerp s.maxB t) (fun h => by simpa [hx, OldExist.make] using ex _ _ _ _ h)
      (fun h => by simpa [hx, OldExist.make] using ex _ _ _ _ h)
      (fun h => by simpa [hx, OldExist.make] using ex _ _ _ _ h) (fun h => by simpa [hx, OldExist.make] using ex _ _ _ _ h)
    obtain ⟨c, hc, -⟩ := low 0
    refine ⟨fun step => lowerView (oldTotal U x c.1 (fun i => (oldWindow energy init deltaE basis).get i)
      (fun i => energy ((oldWindow energy init deltaE basis).get i) - (init.map energy).sum / init.length)
      (fun q => sph s.minE q + (if s.nSteps > 1 then ((step / (s.nSteps - 1 : ℝ) : ℝ) : ℂ) else 0) * (sph s.maxE q - sph s.minE q))
      (fun q => sph s.minB q + (if s.nSteps > 1 then ((step / (s.nSteps - 1 : ℝ) : ℝ) : ℂ) else 0) * (sph s.maxB q - sph s.minB q))), ?_, ?_⟩
    · unfold oldHamOne
      simp only [oldSpherical_eq]
      have n1 : ¬ (s.isReal = true ∧ s.minE.y ≠ 0) := fun hh => h ⟨hh.1, Or.inl hh.2⟩
      have n2 : ¬ (s.isReal = true ∧ s.maxE.y ≠ 0) := fun hh => h ⟨hh.1, Or.inr (Or.inl hh.2)⟩
      have n3 : ¬ (s.isReal = true ∧ s.minB.y ≠ 0) := fun hh => h ⟨hh.1, Or.inr (Or.inr (Or.inl hh.2))⟩
      have n4 : ¬ (s.isReal = true ∧ s.maxB.y ≠ 0) := fun hh => h ⟨hh.1, Or.inr (Or.inr (Or.inr hh.2))⟩
      rw [if_neg n1, if_neg n2, if_neg n3, if_neg n4]
      clear low ht hdb
      refine (Out.ok_bind _ _).trans ?_
      refine (Out.ok_bind _ _).trans ?_
      refine (Out.ok_bind _ _).trans ?_
      refine (Out.ok_bind _ _).trans ?_
      rw [← hx, hc]
      rfl
    · intro step
      obtain ⟨c', hc', hl⟩ := low (s.frac step)
      rw [hc] at hc'
      obtain rfl := Out.ok.inj hc'
      refine lowerView_of_lower _ _ ?_ (spec_herm U J me sp _ hw _ _ _ _)
      intro r k hrk
      rw [← show x.dia = s.dia from rfl, ← hl r k hrk]
      have hsph : ∀ a b : Vec3, (fun q => sph a q + (if s.nSteps > 1 then ((step / (s.nSteps - 1 : ℝ) : ℝ) : ℂ) else 0) * (sph b q - sph a q))
          = sph (a.lerp b (s.frac step)) := by
        intro a b
        funext q
        rw [sph_lerp]
        congr 2
        unfold OldScan.frac
        split_ifs <;> simp
      rw [← hsph, ← hsph]

/-- **C86 (library).** Without diamagnetism, the matrix that is diagonalised is the operator of a SystemOne with the same states, energies and fields. -/
theorem C86_library (hU : U.um ≠ 0 ∧ U.Vcm ≠ 0 ∧ U.GHz ≠ 0 ∧ U.G ≠ 0) (energy : Old1 → ℝ) (init : List Old1) (deltaE : ℝ) (basis : List Old1)
    (hb : ∀ a ∈ basis, OldValid a) (ht : NoTinyElements U J me sp (oldWindow energy init deltaE basis)) (db : OldDb)
    (hdb : DbExact U (oldIntegral me sp J) db) (s : OldScan) (hd : s.dia = false)
    (H) (hH : oldHamOne U (some (oldIntegral me sp J)) energy init deltaE basis db s = .ok H) (step : ℕ)
    (hp : NoTiny ⟨s.minE.lerp s.maxE (s.frac step), s.minB.lerp s.maxB (s.frac step), false, 0, 0, none⟩) :
    H step = freshOper (fieldInter U.consts (U.radial J) me fun i => some (((oldWindow energy init deltaE basis).get i).qn sp))
      (Matrix.diagonal fun i => ((energy ((oldWindow energy init deltaE basis).get i) - (init.map energy).sum / init.length : ℝ) : ℂ)) 1
      ⟨s.minE.lerp s.maxE (s.frac step), s.minB.lerp s.maxB (s.frac step), false, 0, 0, none⟩ := by
  have hw : ∀ a ∈ oldWindow energy init deltaE basis, OldValid a := fun a ha => hb a (List.mem_filter.mp ha).1
  obtain ⟨h1, h2⟩ := C86_hamiltonian U J me sp hU energy init deltaE basis hb ht db hdb s
  have hn : ¬ (s.isReal = true ∧ (s.minE.y ≠ 0 ∨ s.maxE.y ≠ 0 ∨ s.minB.y ≠ 0 ∨ s.maxB.y ≠ 0)) := by
    intro h
    rw [h1 h] at hH
    cases hH
  obtain ⟨H', e1, e2⟩ := h2 hn
  rw [hH] at e1
  obtain rfl := Out.ok.inj e1
  rw [e2 step, C37_physical_operator _ _ _ _ _ _ _ _ hp]
  · rw [hd]
    unfold oneSpec
    simp only [Bool.false_eq_true, if_false, Matrix.one_mul, Matrix.mul_one, add_zero]
    abel
  · intro i a ha
    obtain rfl := Option.some.inj ha
    refine ⟨Old1.qn_physical sp _ (hw _ (List.get_mem _ _)), ?_⟩
    intro j b hb'
    obtain rfl := Option.some.inj hb'
    exact ⟨rfl, rfl⟩

/-- **C86 (scans).** The matrix of a step depends on the fields at this step only: two scans of the same basis that meet the same fields build the same matrix. Hence a
stored matrix may be reused by another scan. -/
theorem C86_scan_independent (hU : U.um ≠ 0 ∧ U.Vcm ≠ 0 ∧ U.GHz ≠ 0 ∧ U.G ≠ 0) (energy : Old1 → ℝ) (init : List Old1) (deltaE : ℝ) (basis : List Old1)
    (hb : ∀ a ∈ basis, OldValid a) (ht : NoTinyElements U J me sp (oldWindow energy init deltaE basis)) (db db' : OldDb)
    (hdb : DbExact U (oldIntegral me sp J) db) (hdb' : DbExact U (oldIntegral me sp J) db') (s s' : OldScan) (hd : s.dia = s'.dia) (H H')
    (hH : oldHamOne U (some (oldIntegral me sp J)) energy init deltaE basis db s = .ok H)
    (hH' : oldHamOne U (some (oldIntegral me sp J)) energy init deltaE basis db' s' = .ok H') (step step' : ℕ)
    (hE : s.minE.lerp s.maxE (s.frac step) = s'.minE.lerp s'.maxE (s'.frac step'))
    (hB : s.minB.lerp s.maxB (s.frac step) = s'.minB.lerp s'.maxB (s'.frac step')) : H step = H' step' := by
  have one : ∀ (db : OldDb) (_ : DbExact U (oldIntegral me sp J) db) (s : OldScan) (H)
      (_ : oldHamOne U (some (oldIntegral me sp J)) energy init deltaE basis db s = .ok H) (step : ℕ),
      H step = oneSpec U.consts (U.radial J) me (fun i => some (((oldWindow energy init deltaE basis).get i).qn sp))
          (fun i => energy ((oldWindow energy init deltaE basis).get i) - (init.map energy).sum / init.length)
          (s.minE.lerp s.maxE (s.frac step)) (s.minB.lerp s.maxB (s.frac step))
          (diaOldT U.consts (U.radial J) me fun i => some (((oldWindow energy init deltaE basis).get i).qn sp)) s.dia := by
    intro db hdb s H hH step
    obtain ⟨h1, h2⟩ := C86_hamiltonian U J me sp hU energy init deltaE basis hb ht db hdb s
    have hn : ¬ (s.isReal = true ∧ (s.minE.y ≠ 0 ∨ s.maxE.y ≠ 0 ∨ s.minB.y ≠ 0 ∨ s.maxB.y ≠ 0)) := by
      intro h
      rw [h1 h] at hH
      cases hH
    obtain ⟨H', e1, e2⟩ := h2 hn
    rw [hH] at e1
    obtain rfl := Out.ok.inj e1
    exact e2 step
  rw [one db hdb s H hH step, one db' hdb' s' H' hH' step', hE, hB, hd]

end

/-- **C86 (end points).** The first step has the fields of the lower end, the last one those of the upper end; a scan without extent has one step. -/
theorem C86_end_points (s : OldScan) :
    (s.minE.lerp s.maxE (s.frac 0) = s.minE ∧ s.minB.lerp s.maxB (s.frac 0) = s.minB) ∧
    (s.nSteps > 1 → s.minE.lerp s.maxE (s.frac (s.nSteps - 1)) = s.maxE ∧ s.minB.lerp s.maxB (s.frac (s.nSteps - 1)) = s.maxB) ∧
    (s.minE = s.maxE → s.minB = s.maxB → s.nSteps = 1) ∧ (¬ (s.minE = s.maxE ∧ s.minB = s.maxB) → s.nSteps = s.steps) := by
  refine ⟨?_, ?_, ?_, ?_⟩
  · have : s.frac 0 = 0 := by unfold OldScan.frac; split_ifs <;> simp
    rw [this]
    constructor <;> simp [Vec3.lerp]
  · intro h
    have : s.frac (s.nSteps - 1) = 1 := by
      unfold OldScan.frac
      rw [if_pos h, Nat.cast_sub (by omega)]
      have : (1 : ℝ) < s.nSteps := by exact_mod_cast h
      rw [Nat.cast_one, div_self (by linarith)]
    rw [this]
    constructor <;> simp [Vec3.lerp]
  · intro h1 h2
    unfold OldScan.nSteps
    rw [if_pos (by rw [h1, h2]; simp)]
  · intro h
    unfold OldScan.nSteps
    rw [if_neg]
    rintro ⟨b1, b2, b3, e1, e2, e3⟩
    apply h
    cases hE : s.minE; cases hE' : s.maxE; cases hB : s.minB; cases hB' : s.maxB
    simp_all

/-- **C86 (window).** A state of the basis is kept exactly if its energy differs from the mean of the initial energies by less than the cutoff (plus 1e-11), all states
for a negative cutoff; the order is kept, and a single initial state is always kept. -/
theorem C86_window (energy : Old1 → ℝ) (init : List Old1) (deltaE : ℝ) (basis : List Old1) :
    (∀ a, a ∈ oldWindow energy init deltaE basis ↔ a ∈ basis ∧ (|energy a - (init.map energy).sum / init.length| < deltaE + 1e-11 ∨ deltaE < 0)) ∧
    (oldWindow energy init deltaE basis).Sublist basis ∧ (deltaE < 0 → oldWindow energy init deltaE basis = basis) ∧
    (∀ a, init = [a] → a ∈ basis → a ∈ oldWindow energy init deltaE basis) := by
  have mem : ∀ a, a ∈ oldWindow energy init deltaE basis ↔ a ∈ basis ∧ (|energy a - (init.map energy).sum / init.length| < deltaE + 1e-11 ∨ deltaE < 0) := by
    intro a
    simp [oldWindow, List.mem_filter]
  refine ⟨mem, List.filter_sublist, ?_, ?_⟩
  · intro h
    unfold oldWindow
    exact List.filter_eq_self.mpr fun a _ => by simp [h]
  · intro a ha hb
    rw [mem, ha]
    refine ⟨hb, ?_⟩
    by_cases h : deltaE < 0
    · right; exact h
    · left
      simp only [List.map_cons, List.map_nil, List.sum_cons, List.sum_nil, List.length_cons, List.length_nil]
      norm_num
      linarith

/-! ## The violation with diamagnetism -/

theorem fct_vals : fct 0 = 1 ∧ fct 1 = 1 ∧ fct 2 = 2 ∧ fct 3 = 6 ∧ fct 4 = 24 ∧ fct 5 = 120 ∧ fct 6 = 720 ∧ fct 7 = 5040 := by
  refine ⟨?_, ?_, ?_, ?_, ?_, ?_, ?_, ?_⟩ <;> unfold fct <;> norm_cast

theorem ifct_vals : ifct 0 = 1 ∧ ifct 1 = 1 ∧ ifct 2 = 1 / 2 ∧ ifct 3 = 1 / 6 ∧ ifct 4 = 1 / 24 ∧ ∀ z < 0, ifct z = 0 := by
  refine ⟨?_, ?_, ?_, ?_, ?_, fun z hz => by simp [ifct, hz]⟩ <;> unfold ifct <;> rw [if_neg (by norm_num)] <;> norm_cast <;> norm_num [Nat.factorial]

theorem w3j_sq (a b c α β γ : ℤ) (h : Valid3 a b c α β γ) :
    w3j a b c α β γ ^ 2 = rad3 a b c α β γ * sum3 ((c - b + α) / 2) ((c - a - β) / 2) ((a + b - c) / 2) ((a - α) / 2) ((b + β) / 2) ^ 2 := by
  unfold w3j
  rw [if_pos h, mul_pow, mul_pow, Real.sq_sqrt (by unfold rad3; simp only [fct]; positivity)]
  have h1 : sgn ((a - b - γ) / 2) ^ 2 = 1 := by rw [sq, sgn_self]
  rw [h1, one_mul]

theorem w6j_sq (a b c d e f : ℤ) (h : Tri a b c ∧ Tri a e f ∧ Tri d b f ∧ Tri d e c) :
    w6j a b c d e f ^ 2 = delta2 a b c * delta2 a e f * delta2 d b f * delta2 d e c *
      sum6 ((a + b + c) / 2) ((a + e + f) / 2) ((d + b + f) / 2) ((d + e + c) / 2) ((a + b + d + e) / 2) ((b + c + e + f) / 2) ((a + c + d + f) / 2) ^ 2 := by
  unfold w6j
  rw [if_pos h, mul_pow, Real.sq_sqrt (by unfold delta2; simp only [fct]; positivity)]

theorem w3j_3030 : w3j 3 0 3 (-1) 0 1 ^ 2 = 1 / 4 := by
  obtain ⟨f0, f1, f2, f3, f4, f5, f6, f7⟩ := fct_vals
  obtain ⟨g0, g1, g2, g3, g4, gn⟩ := ifct_vals
  rw [w3j_sq _ _ _ _ _ _ (by decide), sum3_eq]
  norm_num [rad3, f0, f1, f2, f3, f4, g0, g1, g2, sgn]
theorem w3j_3430 : w3j 3 4 3 (-1) 0 1 ^ 2 = 1 / 20 := by
  obtain ⟨f0, f1, f2, f3, f4, f5, f6, f7⟩ := fct_vals
  obtain ⟨g0, g1, g2, g3, g4, gn⟩ := ifct_vals
  rw [w3j_sq _ _ _ _ _ _ (by decide), sum3_eq]
  have : Finset.Icc (0 : ℤ) ((3 + 4 - 3) / 2) = {0, 1, 2} := by decide
  rw [this]
  norm_num [rad3, f0, f1, f2, f3, f4, f5, f6, g0, g1, g2, sgn, gn]
theorem w6j_231324 : w6j 2 3 1 3 2 4 ^ 2 = 1 / 24 := by
  obtain ⟨f0, f1, f2, f3, f4, f5, f6, f7⟩ := fct_vals
  obtain ⟨g0, g1, g2, g3, g4, gn⟩ := ifct_vals
  rw [w6j_sq _ _ _ _ _ _ (by decide), sum6_eq]
  have : Finset.Icc (((2 : ℤ) + 3 + 1) / 2) ((2 + 3 + 3 + 2) / 2) = {3, 4, 5} := by decide
  rw [this]
  norm_num [delta2, f0, f1, f2, f3, f4, f5, f6, g0, g1, g2, sgn, gn]

theorem w6j_231320 : w6j 2 3 1 3 2 0 ^ 2 = 1 / 12 := by
  obtain ⟨f0, f1, f2, f3, f4, f5, f6, f7⟩ := fct_vals
  obtain ⟨g0, g1, g2, g3, g4, gn⟩ := ifct_vals
  rw [w6j_sq _ _ _ _ _ _ (by decide), sum6_eq]
  have : Finset.Icc (((2 : ℤ) + 3 + 1) / 2) ((2 + 3 + 3 + 2) / 2) = {3, 4, 5} := by decide
  rw [this]
  norm_num [delta2, f0, f1, f2, f3, f4, f5, f6, g0, g1, g2, sgn, gn]

theorem w3j_202 : w3j 2 0 2 0 0 0 ^ 2 = 1 / 3 := by
  obtain ⟨f0, f1, f2, f3, f4, f5, f6, f7⟩ := fct_vals
  obtain ⟨g0, g1, g2, g3, g4, gn⟩ := ifct_vals
  rw [w3j_sq _ _ _ _ _ _ (by decide), sum3_eq]
  norm_num [rad3, f0, f1, f2, f3, f4, g0, g1, g2, sgn]

theorem w3j_242 : w3j 2 4 2 0 0 0 ^ 2 = 2 / 15 := by
  obtain ⟨f0, f1, f2, f3, f4, f5, f6, f7⟩ := fct_vals
  obtain ⟨g0, g1, g2, g3, g4, gn⟩ := ifct_vals
  rw [w3j_sq _ _ _ _ _ _ (by decide), sum3_eq]
  have : Finset.Icc (0 : ℤ) ((2 + 4 - 2) / 2) = {0, 1, 2} := by decide
  rw [this]
  norm_num [rad3, f0, f1, f2, f3, f4, f5, f6, g0, g1, g2, sgn, gn]

/-- The P3/2 state with m = 1/2. -/
def p32 : Old1 := ⟨60, 1, 3, 1⟩

/-- Radial integrals that are one for r² and zero otherwise. -/
noncomputable def J2 (k : RadKey) : ℝ := if k.kappa = 2 then 1 else 0

theorem p32_values (sp : String) (me : Method) :
    valD (Units.consts ⟨1, 1, 1, 1, 1, 2⟩) (Units.radial ⟨1, 1, 1, 1, 1, 2⟩ J2) me 0 (p32.qn sp) (p32.qn sp) ^ 2 = 1 / 144 ∧
    valD (Units.consts ⟨1, 1, 1, 1, 1, 2⟩) (Units.radial ⟨1, 1, 1, 1, 1, 2⟩ J2) me 2 (p32.qn sp) (p32.qn sp) ^ 2 = 1 / 3600 ∧
    valE (Units.consts ⟨1, 1, 1, 1, 1, 2⟩) (Units.radial ⟨1, 1, 1, 1, 1, 2⟩ J2) me (p32.qn sp) (p32.qn sp) = 0 ∧
    valB (Units.consts ⟨1, 1, 1, 1, 1, 2⟩) (Units.radial ⟨1, 1, 1, 1, 1, 2⟩ J2) me (p32.qn sp) (p32.qn sp) = 0 := by
  have hp : (p32.qn sp).Physical := Old1.qn_physical sp _ (by constructor <;> decide)
  have ss : ∀ z, sgn z ^ 2 = 1 := fun z => by rw [sq, sgn_self]
  have rk : ∀ κ : ℤ, (RadKey.make me sp κ 60 60 1 1 3 3).kappa = κ := by
    intro κ; unfold RadKey.make; split_ifs <;> rfl
  refine ⟨?_, ?_, ?_, ?_⟩
  · unfold valD
    rw [electricMultipole_eq _ _ _ _ _ _ _ hp hp rfl rfl]
    simp only [outVal, Old1.qn, p32, Units.radial, J2, rk, if_true, angularSpec, commutesSSpec, multipoleSpec, Units.consts, Units.e, Units.mass]
    norm_num [mul_pow, ss, w3j_3030, w6j_231320, w3j_202]
  · unfold valD
    rw [electricMultipole_eq _ _ _ _ _ _ _ hp hp rfl rfl]
    simp only [outVal, Old1.qn, p32, Units.radial, J2, rk, if_true, angularSpec, commutesSSpec, multipoleSpec, Units.consts, Units.e, Units.mass]
    norm_num [mul_pow, ss, w3j_3430, w6j_231324, w3j_242]
  · unfold valE
    rw [electricMultipole_eq _ _ _ _ _ _ _ hp hp rfl rfl]
    simp [outVal, Old1.qn, p32, Units.radial, J2, rk]
  · unfold valB
    rw [magneticDipole_eq _ _ _ _ _ hp hp rfl rfl rfl]
    simp [outVal, Old1.qn, p32, Units.radial, J2, rk]

theorem p32_tiny (sp : String) (me : Method) (energy : Old1 → ℝ) (init : List Old1) (deltaE : ℝ) :
    NoTinyElements ⟨1, 1, 1, 1, 1, 2⟩ J2 me sp (oldWindow energy init deltaE [p32]) := by
  obtain ⟨h0, h2, h3, h4⟩ := p32_values sp me
  intro a ha b hb
  have ha' : a = p32 := by simpa using ((C86_window energy init deltaE [p32]).1 a).mp ha |>.1
  have hb' : b = p32 := by simpa using ((C86_window energy init deltaE [p32]).1 b).mp hb |>.1
  rw [ha', hb']
  refine ⟨Or.inl h3, Or.inl h4, ?_⟩
  intro k hk
  right
  have big : ∀ x : ℝ, x ^ 2 = 1 / 144 ∨ x ^ 2 = 1 / 3600 → |x| > 1e-32 := by
    intro x hx
    by_contra hh
    have h1 : |x| ≤ 1e-32 := not_lt.mp hh
    have h2 : |x| ^ 2 ≤ (1e-32) ^ 2 := pow_le_pow_left₀ (abs_nonneg x) h1 2
    rw [sq_abs] at h2
    rcases hx with hx | hx <;> rw [hx] at h2 <;> norm_num at h2
  simp only [List.mem_cons, List.not_mem_nil, or_false] at hk
  rcases hk with rfl | rfl
  · exact big _ (Or.inl h0)
  · exact big _ (Or.inr h2)

/-- **C86, the violation.** With diamagnetism the legacy program loses the quadrupole part between states of equal l, j and m, because an element goes into one of the
matrices only: for a P3/2 state in a magnetic field along z the matrix differs from that of the library. -/
theorem C86_diamagnetism_fails : ∃ (U : Units) (J : RadKey → ℝ) (me : Method) (sp : String) (energy : Old1 → ℝ) (init : List Old1) (deltaE : ℝ) (basis : List Old1)
    (s : OldScan) (H : _), (∀ a ∈ basis, OldValid a) ∧ NoTinyElements U J me sp (oldWindow energy init deltaE basis) ∧
    oldHamOne U (some (oldIntegral me sp J)) energy init deltaE basis (fun _ => none) s = .ok H ∧ s.dia = true ∧ s.nSteps = 1 ∧
    NoTiny ⟨s.minE, s.minB, true, 0, 0, none⟩ ∧
    H 0 ≠ freshOper (fieldInter U.consts (U.radial J) me fun i => some (((oldWindow energy init deltaE basis).get i).qn sp))
      (Matrix.diagonal fun i => ((energy ((oldWindow energy init deltaE basis).get i) - (init.map energy).sum / init.length : ℝ) : ℂ)) 1
      ⟨s.minE, s.minB, true, 0, 0, none⟩ := by
  set U : Units := ⟨1, 1, 1, 1, 1, 2⟩ with hU
  set s : OldScan := ⟨false, ⟨0, 0, 0⟩, ⟨0, 0, 0⟩, ⟨0, 0, 1⟩, ⟨0, 0, 1⟩, true, 1⟩ with hs
  set energy : Old1 → ℝ := fun _ => 0
  have me : Method := .numerov
  have hb : ∀ a ∈ [p32], OldValid a := by
    intro a ha
    simp only [List.mem_cons, List.not_mem_nil, or_false] at ha
    subst ha
    constructor <;> decide
  have ht := p32_tiny "Rb" me energy [p32] (-1)
  obtain ⟨-, h2⟩ := C86_hamiltonian U J2 me "Rb" (by simp [hU]) energy [p32] (-1) [p32] hb ht (fun _ => none) (by intro k v h; cases h) s
  obtain ⟨H, e1, e2⟩ := h2 (by simp [hs])
  have hn : s.nSteps = 1 := (C86_end_points s).2.2.1 rfl rfl
  have hB0 : sph ⟨0, 0, 1⟩ 0 = 1 := by rw [sph_eq_spec]; simp [sphSpec]
  have hB1 : sph ⟨0, 0, 1⟩ 1 = 0 := by rw [sph_eq_spec]; simp [sphSpec]
  have hBm : sph ⟨0, 0, 1⟩ (-1) = 0 := by rw [sph_eq_spec]; simp [sphSpec]
  have big1 : isBig 1 = true := by
    unfold isBig
    have h1 : ‖(1 : ℂ)‖ = 1 := by rw [← Complex.ofReal_one, Complex.norm_real, norm_one]
    rw [h1]; norm_num
  have hp : NoTiny ⟨s.minE, s.minB, true, 0, 0, none⟩ := by
    refine ⟨?_, ?_, ?_⟩
    · intro q; left
      rw [sph_eq_spec]; simp [sphSpec, hs]
    · intro q
      by_cases h0 : q = 0
      · right; rw [h0]; show isBig (sph ⟨0, 0, 1⟩ 0) = true
        rw [hB0]; exact big1
      · left
        show sph ⟨0, 0, 1⟩ q = 0
        rw [sph_eq_spec]; simp [sphSpec, h0]
    · intro k q
      show diaTerm ⟨0, 0, 1⟩ k q = 0 ∨ isBig (diaTerm ⟨0, 0, 1⟩ k q) = true
      unfold diaTerm
      rw [hB0, hB1, hBm]
      split_ifs <;> norm_num [big1]
  refine ⟨U, J2, me, "Rb", energy, [p32], -1, [p32], s, H, hb, ht, e1, rfl, hn, hp, ?_⟩
  have hlen : oldWindow energy [p32] (-1) [p32] = [p32] := (C86_window energy [p32] (-1) [p32]).2.2.1 (by norm_num)
  have hpos : 0 < (oldWindow energy [p32] (-1) [p32]).length := by rw [hlen]; simp
  have hget : ∀ i, (oldWindow energy [p32] (-1) [p32]).get i = p32 := by
    intro i
    have := ((C86_window energy [p32] (-1) [p32]).1 ((oldWindow energy [p32] (-1) [p32]).get i)).mp (List.get_mem _ _)
    simpa using this.1
  have h0 := (C86_end_points s).1
  rw [e2 0, h0.1, h0.2, C37_physical_operator _ _ _ _ (by
    intro i a ha
    obtain rfl := Option.some.inj ha
    rw [hget i]
    refine ⟨Old1.qn_physical "Rb" _ (hb _ (by simp)), ?_⟩
    intro j b hb'
    obtain rfl := Option.some.inj hb'
    exact ⟨rfl, rfl⟩) _ _ _ hp]
  intro heq
  have e00 := congrFun (congrFun heq ⟨0, hpos⟩) ⟨0, hpos⟩
  have hv := (p32_values "Rb" me).2.1
  have key : valD (Units.consts ⟨1, 1, 1, 1, 1, 2⟩) (Units.radial ⟨1, 1, 1, 1, 1, 2⟩ J2) me 2 (p32.qn "Rb") (p32.qn "Rb") = 0 := by
    unfold oneSpec at e00
    simp only [Matrix.one_mul, Matrix.mul_one, Matrix.add_apply, Matrix.sub_apply, Matrix.neg_apply, if_true, diaKeys, List.map_cons, List.map_nil, List.sum_cons,
      List.sum_nil, Matrix.smul_apply, addCoef, diaTerm, diaOldT, diaT, tensorMat, hget, smul_eq_mul] at e00
    rw [show s.minB = ⟨0, 0, 1⟩ from rfl, hB0, hB1, hBm] at e00
    norm_num at e00
    rw [show s.dia = true from rfl, if_pos rfl, Matrix.add_apply, Matrix.neg_apply] at e00
    unfold tensorMat at e00
    dsimp only at e00
    norm_num at e00
    unfold valD
    rw [← hU]
    rcases e00 with h | h | h <;> rw [h] <;> simp
  rw [key] at hv
  norm_num at hv

/-- C86 applies: a rubidium P3/2 state in a scan of an electric field. -/
example : ∃ H, oldHamOne ⟨1, 1, 1, 1, 1, 2⟩ (some (oldIntegral .numerov "Rb" J2)) (fun _ => 0) [p32] 5 [p32] (fun _ => none)
    ⟨true, ⟨0, 0, 0⟩, ⟨1, 0, 2⟩, ⟨0, 0, 0⟩, ⟨0, 0, 0⟩, false, 10⟩ = .ok H := by
  obtain ⟨-, h2⟩ := C86_hamiltonian ⟨1, 1, 1, 1, 1, 2⟩ J2 .numerov "Rb" (by simp) (fun _ => 0) [p32] 5 [p32] (by
    intro a ha
    simp only [List.mem_cons, List.not_mem_nil, or_false] at ha
    subst ha
    constructor <;> decide) (p32_tiny _ _ _ _ _) (fun _ => none) (by intro k v h; cases h) ⟨true, ⟨0, 0, 0⟩, ⟨1, 0, 2⟩, ⟨0, 0, 0⟩, ⟨0, 0, 0⟩, false, 10⟩
  obtain ⟨H, h, -⟩ := h2 (by simp)
  exact ⟨H, h⟩

end PI
