import Verif.Legacy.Reflect
import Verif.Legacy.HamOne

/-!
# Legacy pair Hamiltonian with reflection: where the hypotheses of C91 come from, a case that meets them
-/

namespace PI

open Matrix

section
variable (U : Units) (J : RadKey → ℝ) (me : Method) (sp : String)

theorem qn_valid {a : Old1} (h : OldValid a) : (a.qn sp).Physical := Old1.qn_physical sp a h

/-- The dipole element of two states with reversed magnetic quantum numbers. -/
theorem dipole_flip (a b : Old1) (ha : OldValid a) (hb : OldValid b) (hm : a.m = b.m) :
    outVal (electricMultipole U.consts.elem (U.radial J) me (a.flip.qn sp) (b.flip.qn sp) 1 1) =
      ((oneSign a * oneSign b : ℤ) : ℝ) * outVal (electricMultipole U.consts.elem (U.radial J) me (a.qn sp) (b.qn sp) 1 1) := by
  rw [electricMultipole_eq _ _ me (a.qn sp) (b.qn sp) 1 1 (qn_valid sp ha) (qn_valid sp hb) rfl rfl,
    electricMultipole_eq _ _ me (a.flip.qn sp) (b.flip.qn sp) 1 1 (qn_valid sp (flip_valid ha)) (qn_valid sp (flip_valid hb)) rfl rfl]
  unfold outVal
  dsimp only
  by_cases hl : (a.l + b.l) % 2 = 0
  · have z : multipoleSpec 1 (a.qn sp).l (b.qn sp).l = 0 := by
      unfold multipoleSpec
      rw [w3j_zero_of_odd _ _ _ (by show (2 * a.l + 2 * 1 + 2 * b.l) / 2 % 2 = 1; omega), mul_zero]
    have z' : multipoleSpec 1 (a.flip.qn sp).l (b.flip.qn sp).l = 0 := z
    rw [z, z']
    simp
  have ang : angularSpec 1 (a.flip.qn sp).j (b.flip.qn sp).j (a.flip.qn sp).m (b.flip.qn sp).m =
      ((oneSign a * oneSign b : ℤ) : ℝ) * angularSpec 1 (a.qn sp).j (b.qn sp).j (a.qn sp).m (b.qn sp).m := by
    unfold angularSpec
    show sgn ((a.j - -a.m) / 2) * w3j a.j (2 * 1) b.j (- -a.m) (-a.m - -b.m) (-b.m) = _ * (sgn ((a.j - a.m) / 2) * w3j a.j (2 * 1) b.j (-a.m) (a.m - b.m) b.m)
    have p1 := ha.mpar
    have p2 := hb.mpar
    have j1 := j_odd ha
    have j2 := j_odd hb
    have : -a.m - -b.m = -(a.m - b.m) := by ring
    rw [this, w3j_neg]
    have e : sgn ((a.j - -a.m) / 2) = -sgn ((a.j - a.m) / 2) := by
      unfold sgn
      split_ifs <;> first | omega | norm_num
    have e2 : ((oneSign a * oneSign b : ℤ) : ℝ) = -sgn ((a.j + 2 * 1 + b.j) / 2) := by
      unfold oneSign
      rw [← parityOf_add]
      unfold parityOf sgn
      split_ifs <;> first | omega | norm_num
    rw [e, e2]
    ring
  rw [ang]
  have r : RadKey.make me (a.flip.qn sp).species 1 (a.flip.qn sp).n (b.flip.qn sp).n (a.flip.qn sp).l (b.flip.qn sp).l (a.flip.qn sp).j (b.flip.qn sp).j =
      RadKey.make me (a.qn sp).species 1 (a.qn sp).n (b.qn sp).n (a.qn sp).l (b.qn sp).l (a.qn sp).j (b.qn sp).j := rfl
  have c : commutesSSpec (a.flip.qn sp).s 1 (a.flip.qn sp).l (b.flip.qn sp).l (a.flip.qn sp).j (b.flip.qn sp).j =
      commutesSSpec (a.qn sp).s 1 (a.qn sp).l (b.qn sp).l (a.qn sp).j (b.qn sp).j := rfl
  have m : multipoleSpec 1 (a.flip.qn sp).l (b.flip.qn sp).l = multipoleSpec 1 (a.qn sp).l (b.qn sp).l := rfl
  rw [r, c, m]
  ring

/-- **C91.** The one-atom matrix of the legacy program (C86) with an electric field along z and no magnetic field commutes with the reflection, with and without
diamagnetism, for all energies that do not depend on the magnetic quantum number. -/
theorem C91_one_atom {n : ℕ} (s : Fin n → Old1) (hs : ∀ i, OldValid (s i)) (inj : Function.Injective s) (e : Fin n → ℝ)
    (he : ∀ i k, s k = { s i with m := -(s i).m } → e k = e i) (Ez : ℝ) (dia : Bool) (D : ℤ → ℤ → Matrix (Fin n) (Fin n) ℂ) :
    ReflInv s (oneSpec U.consts (U.radial J) me (fun i => some ((s i).qn sp)) e ⟨0, 0, Ez⟩ ⟨0, 0, 0⟩ D dia) := by
  intro i j k l hk hl
  have z : ∀ T : ℤ → Matrix (Fin n) (Fin n) ℂ, dotOp ⟨0, 0, 0⟩ T = 0 := by
    intro T
    unfold dotOp
    simp
  have zE : ∀ T : ℤ → Matrix (Fin n) (Fin n) ℂ, dotOp ⟨0, 0, Ez⟩ T = (Ez : ℂ) • T 0 := by
    intro T
    unfold dotOp
    simp
  have zd : (if dia then (diaKeys.map fun i => addCoef ⟨⟨0, 0, Ez⟩, ⟨0, 0, 0⟩, true, 0, 0, none⟩ (.d i.1 i.2) • D i.1 i.2).sum else 0) = (0 : Matrix (Fin n) (Fin n) ℂ) := by
    have s0 : ∀ q, sph ⟨0, 0, 0⟩ q = 0 := by
      intro q
      unfold sph
      split_ifs <;> first | rfl | (apply Complex.ext <;> simp)
    cases dia with
    | false => simp
    | true => simp [diaKeys, addCoef, diaTerm, s0]
  unfold oneSpec
  rw [z, zE, zd, sub_zero, add_zero, Matrix.sub_apply, Matrix.sub_apply, mul_sub]
  congr 1
  · by_cases hij : i = j
    · subst hij
      have : k = l := inj (hk.trans hl.symm)
      subst this
      rw [Matrix.diagonal_apply_eq, Matrix.diagonal_apply_eq, he i k hk, oneSign_sq]
      simp
    · have : k ≠ l := by
        intro h
        subst h
        apply hij
        have := hk.symm.trans hl
        exact inj (by rw [← flip_flip (s i), this, flip_flip])
      rw [Matrix.diagonal_apply_ne _ hij, Matrix.diagonal_apply_ne _ this, mul_zero]
  · rw [Matrix.smul_apply, Matrix.smul_apply, smul_eq_mul, smul_eq_mul, mul_left_comm]
    congr 1
    unfold dipoleT tensorMat
    dsimp only
    rw [hk, hl]
    by_cases hm : (s i).m = (s j).m
    · have c1 : ((s i).flip.qn sp).m - ((s j).flip.qn sp).m = 2 * 0 := by
        show -(s i).m - -(s j).m = 2 * 0
        omega
      have c2 : ((s i).qn sp).m - ((s j).qn sp).m = 2 * 0 := by
        show (s i).m - (s j).m = 2 * 0
        omega
      rw [if_pos c1, if_pos c2, dipole_flip U J me sp _ _ (hs i) (hs j) hm]
      push_cast
      rfl
    · have c1 : ¬ ((s i).flip.qn sp).m - ((s j).flip.qn sp).m = 2 * 0 := by
        show ¬ -(s i).m - -(s j).m = 2 * 0
        omega
      have c2 : ¬ ((s i).qn sp).m - ((s j).qn sp).m = 2 * 0 := by
        show ¬ (s i).m - (s j).m = 2 * 0
        omega
      rw [if_neg c1, if_neg c2, mul_zero]

/-- **C91.** The program, run twice for two atoms of the same species on a database that earlier runs left: from the second run on, with both parities of the reflection
requested, the blocks together have the characteristic polynomial of the matrix without symmetries. -/
theorem C91_second_run_partial {n : ℕ} (s : Fin n → Old1) (hs : ∀ i, OldValid (s i)) (inj : Function.Injective s) (hf : ∀ i, ∃ k, s k = { s i with m := -(s i).m })
    (A : OldOne n) (H : Matrix (Fin n) (Fin n) ℂ) (hA : A.basisᴴ * A.basis = 1) (hA' : A.basis * A.basisᴴ = 1)
    (eig : H * A.basis = A.basis * diagonal fun c => (A.diag c : ℂ)) (hH : ReflInv s H) (mu : Fin A.nb → ℤ) (hmu : ∀ r c, A.basis r c ≠ 0 → (s r).m = mu c) (exponent : ℤ)
    (db : OldDb) (hdb : ∀ k v, db k = some v → v = printR (oldVal U (oldIntegral me sp J) k))
    (R deltaE : ℝ) (steps : List (OldOne n × OldOne n)) (hst : (A, A) ∈ steps) (conf : OldSymConf) (hinv : conf.inv = (false, false)) (hper : conf.per = (false, false))
    (href : conf.ref = (true, true)) (hsame : conf.sametrafo = false) (init : Old1 × Old1) :
    let names := number 0 (List.ofFn (pairState s s))
    let run := fun db : OldDb => twoPrecalc U (some (oldIntegral me sp J)) (some (oldIntegral me sp J)) true ((buildFromTwo false names).map (·.2)) ((buildFromTwo true names).map (·.2))
      (oldKappas exponent) ((fun _ => none, db), (fun _ => none, db))
    ∃ first second, run db = .ok first ∧ run first.1.2 = .ok second ∧ second.1.2 = first.1.2 ∧
    ∃ blk : OldSym → Σ k, Matrix (Fin k) (Fin k) ℂ,
      (∀ sym ∈ oldSymmetries conf init (List.ofFn (pairState s s)), oldBlock U second.1.1 second.2.1 sym s s A A deltaE
        (oldNecessary conf (oldSymmetries conf init (List.ofFn (pairState s s))) init (pairState s s) (oldCutoff steps deltaE)) exponent R = .ok (blk sym)) ∧
      ∃ B, oldBlock U second.1.1 second.2.1 ⟨none, none, none, none⟩ s s A A deltaE
          (oldNecessary .plain (oldSymmetries .plain init (List.ofFn (pairState s s))) init (pairState s s) (oldCutoff steps deltaE)) exponent R = .ok B ∧
        B.2.charpoly = ((oldSymmetries conf init (List.ofFn (pairState s s))).map fun sym => (blk sym).2.charpoly).prod := by
  intro names run
  have mem : ∀ second x, x ∈ (buildFromTwo second names).map (·.2) ↔ ∃ i, s i = x := fun second x => mem_product s second x
  have val : ∀ x ∈ (buildFromTwo false names).map (·.2), OldValid x := fun x hx => by obtain ⟨i, rfl⟩ := (mem _ _).mp hx; exact hs i
  obtain ⟨t, t1, -, c, c1, c2⟩ := second_cells U J me sp ((buildFromTwo false names).map (·.2)) ((buildFromTwo true names).map (·.2))
    (fun x => by rw [mem, mem]) exponent db hdb
  have q1 := herm_of_cells U J me sp printR printR_neg c _ val _ c2
  have q2 := refl_of_cells U J me sp printR printR_neg c _ val (by
    intro x hx
    obtain ⟨i, rfl⟩ := (mem _ _).mp hx
    obtain ⟨k, hk⟩ := hf i
    exact (mem _ _).mpr ⟨k, hk⟩) _ c2
  have h1 : CellsHerm c (fun x => ∃ i, s i = x) (exponent - 2) := fun a b ha hb => q1 a b ((mem _ _).mpr ha) ((mem _ _).mpr hb)
  have h2 : CellsRefl c (fun x => ∃ i, s i = x) (exponent - 2) := fun a b ha hb => q2 a b ((mem _ _).mpr ha) ((mem _ _).mpr hb)
  refine ⟨t, ((c, t.1.2), (c, t.1.2)), t1, c1, rfl, ?_⟩
  exact C91_spectrum_partial U c c s s hs hs inj inj hf hf A A H H hA hA' hA hA' eig eig hH hH mu mu hmu hmu exponent h1 h1 h2 h2 R deltaE steps hst conf hinv hper href hsame init

end

/-! ## A case that meets the hypotheses: the two states of an S level -/

/-- The states. -/
def exFlip : Fin 2 → Old1 := ![⟨60, 0, 1, 1⟩, ⟨60, 0, 1, -1⟩]

/-- Their eigenvectors and energies without fields. -/
noncomputable def exDeg : OldOne 2 := ⟨2, 1, ![1, 1]⟩

theorem exDeg_orth : exDeg.basisᴴ * exDeg.basis = (1 : Matrix (Fin exDeg.nb) (Fin exDeg.nb) ℂ) := by
  show (1 : Matrix (Fin 2) (Fin 2) ℂ)ᴴ * (1 : Matrix (Fin 2) (Fin 2) ℂ) = 1
  rw [conjTranspose_one, Matrix.mul_one]

theorem exDeg_orth' : exDeg.basis * exDeg.basisᴴ = (1 : Matrix (Fin 2) (Fin 2) ℂ) := by
  show (1 : Matrix (Fin 2) (Fin 2) ℂ) * (1 : Matrix (Fin 2) (Fin 2) ℂ)ᴴ = 1
  rw [conjTranspose_one, Matrix.mul_one]

theorem exDeg_eig : diagonal (fun _ : Fin 2 => ((1 : ℝ) : ℂ)) * exDeg.basis = exDeg.basis * diagonal fun c => (exDeg.diag c : ℂ) := by
  have e : (fun c : Fin 2 => ((![1, 1] c : ℝ) : ℂ)) = fun _ : Fin 2 => ((1 : ℝ) : ℂ) := by funext c; fin_cases c <;> rfl
  show diagonal (fun _ : Fin 2 => ((1 : ℝ) : ℂ)) * (1 : Matrix (Fin 2) (Fin 2) ℂ) = (1 : Matrix (Fin 2) (Fin 2) ℂ) * diagonal fun c : Fin 2 => ((![1, 1] c : ℝ) : ℂ)
  rw [Matrix.mul_one, Matrix.one_mul, e]

/-- The reflection alone and with the momentum, dipole-dipole interaction, empty database, in a field along z: the hypotheses of `C91_second_run_partial` and `C91_one_atom` hold. -/
example (U : Units) (J : RadKey → ℝ) (me : Method) (sp : String) (conserveM : Bool) :=
  C91_second_run_partial U J me sp exFlip (fun i => by fin_cases i <;> exact ⟨by decide, by decide, by decide, by decide, by decide⟩)
    (by intro a b; fin_cases a <;> fin_cases b <;> simp [exFlip]) (fun i => by fin_cases i; exacts [⟨1, rfl⟩, ⟨0, rfl⟩]) exDeg
    (diagonal fun _ => ((1 : ℝ) : ℂ)) exDeg_orth exDeg_orth'
    exDeg_eig
    (by
      have h := C91_one_atom U J me sp exFlip (fun i => by fin_cases i <;> exact ⟨by decide, by decide, by decide, by decide, by decide⟩)
        (by intro a b; fin_cases a <;> fin_cases b <;> simp [exFlip]) (fun _ => 1) (fun _ _ _ => rfl) 0 true (fun _ _ => 0)
      have e : oneSpec U.consts (U.radial J) me (fun i => some ((exFlip i).qn sp)) (fun _ => 1) ⟨0, 0, 0⟩ ⟨0, 0, 0⟩ (fun _ _ => 0) true = diagonal fun _ : Fin 2 => ((1 : ℝ) : ℂ) := by
        unfold oneSpec dotOp
        simp
      rw [e] at h
      exact h)
    (![1, -1] : Fin 2 → ℤ)
    (fun r c h => by
      have : r = c := by
        by_contra hne
        exact h (show (1 : Matrix (Fin 2) (Fin 2) ℂ) r c = 0 from Matrix.one_apply_ne hne)
      subst this
      fin_cases r <;> rfl)
    3 (fun _ => none) (by simp) 1 5 [(exDeg, exDeg)] (by simp) ⟨(false, false), (false, false), (true, true), conserveM, false, false⟩ rfl rfl rfl rfl (exFlip 0, exFlip 0)

end PI
