import Verif.Legacy.Threads
import Mathlib.Tactic.Linarith

/-! # Property C93: histories, progress, and the two races -/

namespace PI

variable {Conf M : Type} [DecidableEq Conf]

/-- The positions at which the table need not exist. -/
def BeforeTable (σ : Shared Conf) (p : ThreadPC M) : Prop :=
  σ.table = true ∨ p = .start ∨ p = .setFlag ∨ p = .create ∨ p = .select

/-- Also when an exception ends the program, the disk is left in order. -/
theorem threadTick_disk {one : Bool} {ser : M → List Byte} {ld : List Byte → Out M} {comp : Conf → M}
    (hfmt : FormatOk ser ld comp) {σ : Shared Conf} (h : DiskOk ser comp σ) (hd : σ.dead = false)
    {conf : Conf} {g : ℕ} {p : ThreadPC M} (ht : BeforeTable σ p) (hp : PCOk ser comp conf g σ p) :
    let r := threadTick one ser ld conf g (comp conf) σ p
    DiskOk ser comp r.1 ∧ BeforeTable r.1 r.2 ∧ PCOk ser comp conf g r.1 r.2 ∧
    Extends σ r.1 g conf ∧ (σ.table = true → r.1.table = true) := by
  by_cases htb : σ.table = true
  · obtain ⟨a1, -, -, -, a5, a6, a7⟩ := threadTick_ok (one := one) hfmt h hd (Or.inl htb) (Or.inl htb) hp
    exact ⟨a1, Or.inl (a7 htb), a5, a6, a7⟩
  · rcases ht with ht | rfl | rfl | rfl | rfl
    · exact absurd ht htb
    · have hg : g ∉ σ.rows.map Prod.fst := hp
      simp only [threadTick]
      refine ⟨h, ?_, ?_, ⟨Or.inl rfl, fun _ _ => rfl⟩, fun h => h⟩
      · right
        cases σ.flag <;> cases one <;> simp
      · cases σ.flag <;> cases one <;> exact hg
    · have hg : g ∉ σ.rows.map Prod.fst := hp
      simp only [threadTick]
      refine ⟨h.congr rfl rfl, ?_, ?_, ⟨Or.inl rfl, fun _ _ => rfl⟩, fun h => h⟩
      · right
        cases one <;> simp
      · cases one <;> exact hg
    · have hg : g ∉ σ.rows.map Prod.fst := hp
      simp only [threadTick]
      refine ⟨h.congr rfl rfl, Or.inl rfl, ?_, ⟨Or.inl rfl, fun _ _ => rfl⟩, fun _ => trivial⟩
      cases one <;> exact hg
    · have hg : g ∉ σ.rows.map Prod.fst := hp
      simp only [threadTick]
      rw [if_neg htb]
      exact ⟨h.congr rfl rfl, Or.inr (by simp), hg, ⟨Or.inl rfl, fun _ _ => rfl⟩, fun h => h⟩

/-- What holds at any point of a run, dead or not; `old` are the names in use when it started. -/
structure RunOk (ser : M → List Byte) (comp : Conf → M) (R : ProgRun Conf) (old : List ℕ) (w : TWorld Conf M) :
    Prop where
  disk : DiskOk ser comp w.sh
  table : ∀ i < R.n, BeforeTable w.sh (w.pcs i)
  pcs : ∀ i < R.n, PCOk ser comp (R.conf i) (R.gen i) w.sh (w.pcs i)
  names : ∀ u ∈ w.sh.rows.map Prod.fst, u ∈ old ∨ ∃ i < R.n, u = R.gen i

theorem runOk_tick {one : Bool} {ser : M → List Byte} {ld : List Byte → Out M} {comp : Conf → M}
    (hfmt : FormatOk ser ld comp) {R : ProgRun Conf} (hR : R.Distinct) {old : List ℕ} {w : TWorld Conf M}
    (h : RunOk ser comp R old w) (i : ℕ) : RunOk ser comp R old (w.tick one ser ld comp R i) := by
  unfold TWorld.tick
  by_cases hc : w.sh.dead ∨ ¬ i < R.n
  · rw [if_pos hc]; exact h
  · rw [if_neg hc]
    push Not at hc
    have hd : w.sh.dead = false := by simpa using hc.1
    have hi := hc.2
    obtain ⟨a1, a4, a5, a6, a7⟩ := threadTick_disk (one := one) hfmt h.disk hd (h.table i hi) (h.pcs i hi)
    refine ⟨a1, ?_, ?_, ?_⟩
    · intro j hj
      dsimp only
      by_cases e : j = i
      · subst e; rw [Function.update_self]; exact a4
      · rw [Function.update_of_ne e]
        rcases h.table j hj with h1 | h1
        · exact Or.inl (a7 h1)
        · exact Or.inr h1
    · intro j hj
      dsimp only
      by_cases e : j = i
      · subst e; rw [Function.update_self]; exact a5
      · rw [Function.update_of_ne e]
        exact PCOk.other a6 (fun eg => e ((hR j hj i hi).2 eg)) (fun ec => e ((hR j hj i hi).1 ec)) _ (h.pcs j hj)
    · intro u hu
      dsimp only at hu
      rcases a6.rows with e | e <;> rw [e] at hu
      · exact h.names u hu
      · simp only [List.map_append, List.mem_append, List.map_cons, List.map_nil, List.mem_singleton] at hu
        rcases hu with hu | hu
        · exact h.names u hu
        · exact Or.inr ⟨i, hi, hu⟩

/-- The names a run may draw. -/
def ProgRun.gens (R : ProgRun Conf) : List ℕ := (List.range R.n).map R.gen

omit [DecidableEq Conf] in
theorem mem_gens (R : ProgRun Conf) (u : ℕ) : u ∈ R.gens ↔ ∃ i < R.n, u = R.gen i := by
  simp only [ProgRun.gens, List.mem_map, List.mem_range]
  exact ⟨fun ⟨i, h, e⟩ => ⟨i, h, e.symm⟩, fun ⟨i, h, e⟩ => ⟨i, h, e.symm⟩⟩

theorem runOk_exec {one : Bool} {ser : M → List Byte} {ld : List Byte → Out M} {comp : Conf → M}
    (hfmt : FormatOk ser ld comp) {R : ProgRun Conf} (hR : R.Distinct) {σ : Shared Conf} (h : DiskOk ser comp σ)
    (hg : ∀ i < R.n, R.gen i ∉ σ.rows.map Prod.fst) :
    RunOk ser comp R (σ.rows.map Prod.fst) (R.exec one ser ld comp σ) := by
  unfold ProgRun.exec
  have h0 : RunOk ser comp R (σ.rows.map Prod.fst) (TWorld.init (M := M) σ) :=
    ⟨h.congr rfl rfl, fun _ _ => Or.inr (Or.inl rfl), fun i hi => hg i hi, fun u hu => Or.inl hu⟩
  generalize R.sched = s
  generalize TWorld.init (M := M) σ = w at h0
  induction s generalizing w with
  | nil => exact h0
  | cons i s ih => exact ih _ (runOk_tick hfmt hR h0 i)

/-- After any history. -/
theorem diskAfter_ok {one : Bool} {ser : M → List Byte} {ld : List Byte → Out M} {comp : Conf → M}
    (hfmt : FormatOk ser ld comp) (hist : List (ProgRun Conf)) (hR : ∀ R ∈ hist, R.Distinct)
    (hg : (hist.flatMap ProgRun.gens).Nodup) :
    DiskOk ser comp (diskAfter one ser ld comp hist) ∧
    ∀ u ∈ (diskAfter one ser ld comp hist).rows.map Prod.fst, u ∈ hist.flatMap ProgRun.gens := by
  induction hist using List.reverseRecOn with
  | nil =>
    refine ⟨⟨by simp [diskAfter, Shared.empty], by simp [diskAfter, Shared.empty], ?_, fun _ _ => rfl⟩, ?_⟩
    · intro r hr; simp [diskAfter, Shared.empty] at hr
    · intro r hr; simp [diskAfter, Shared.empty] at hr
  | append_singleton hist R ih =>
    rw [List.flatMap_append, List.nodup_append] at hg
    obtain ⟨g1, -, g3⟩ := hg
    obtain ⟨i1, i2⟩ := ih (fun R h => hR R (by simp [h])) g1
    have e : diskAfter one ser ld comp (hist ++ [R]) = (R.exec one ser ld comp (diskAfter one ser ld comp hist)).sh := by
      simp [diskAfter, List.foldl_append]
    have hx := runOk_exec (one := one) hfmt (hR R (by simp)) i1 (fun i hi hm => g3 _ (i2 _ hm) (R.gen i) (by
      simp only [List.flatMap_cons, List.flatMap_nil, List.append_nil]
      exact (mem_gens R _).mpr ⟨i, hi, rfl⟩) rfl)
    rw [e]
    refine ⟨hx.disk, fun u hu => ?_⟩
    rw [List.flatMap_append, List.mem_append]
    rcases hx.names u hu with h | h
    · exact Or.inl (i2 u h)
    · right
      simp only [List.flatMap_cons, List.flatMap_nil, List.append_nil]
      exact (mem_gens R u).mpr h

/-! ## Progress -/

/-- How many actions are left at most, for a file of `L` bytes. -/
def ThreadPC.left (one : Bool) (L : ℕ) : ThreadPC M → ℕ
  | .start => L + 10
  | .setFlag => if one then L + 9 else L + 8
  | .create => if one then L + 8 else L + 9
  | .select => L + 7
  | .update _ | .insert => L + 6
  | .checkMat _ => L + 5
  | .checkJson _ => L + 4
  | .truncJson _ => L + 3
  | .writeJson _ => L + 2
  | .load _ => L + 2
  | .write _ k => L - k + 1
  | .done _ _ => 0

theorem left_tick {one : Bool} {ser : M → List Byte} {ld : List Byte → Out M} {conf : Conf} {g : ℕ} {m : M}
    {σ : Shared Conf} {p : ThreadPC M} (hd : (threadTick one ser ld conf g m σ p).1.dead = false) :
    (threadTick one ser ld conf g m σ p).2.left one (ser m).length ≤ p.left one (ser m).length - 1 := by
  cases p with
  | start => simp only [threadTick]; cases σ.flag <;> cases one <;> simp [ThreadPC.left]
  | setFlag => simp only [threadTick]; cases one <;> simp [ThreadPC.left]
  | create => simp only [threadTick]; cases one <;> simp [ThreadPC.left]
  | select =>
    simp only [threadTick] at hd ⊢
    by_cases h : σ.table = true
    · rw [if_pos h]
      cases σ.rows.find? (fun r => decide (r.2 = conf)) <;> simp [ThreadPC.left]
    · rw [if_neg h] at hd; simp at hd
  | update u => simp [threadTick, ThreadPC.left]
  | insert =>
    simp only [threadTick] at hd ⊢
    split_ifs at hd ⊢ with h
    simp [ThreadPC.left]
  | checkMat u => simp only [threadTick]; split_ifs <;> simp [ThreadPC.left]
  | checkJson u =>
    simp only [threadTick] at hd ⊢
    rcases hj : (σ.files u).json with _ | _ | c
    · simp [ThreadPC.left]
    · rw [hj] at hd; simp at hd
    · dsimp only; split_ifs <;> simp [ThreadPC.left]
  | truncJson u => simp [threadTick, ThreadPC.left]
  | writeJson u => simp [threadTick, ThreadPC.left]
  | load u =>
    simp only [threadTick] at hd ⊢
    cases hl : ld ((σ.files u).mat.getD []) with
    | ok m' => simp [ThreadPC.left]
    | throw => simp [ThreadPC.left]
    | ub => rw [hl] at hd; simp at hd
  | write u k =>
    simp only [threadTick]
    split_ifs with h
    · simp only [ThreadPC.left]; omega
    · simp [ThreadPC.left]
  | done u m' => simp [threadTick, ThreadPC.left]

theorem left_zero {one : Bool} {L : ℕ} {p : ThreadPC M} (hp : p.left one L = 0) : ∃ u m, p = .done u m := by
  cases p <;> cases one <;> first | exact ⟨_, _, rfl⟩ | (simp [ThreadPC.left] at hp)

theorem left_run {one : Bool} {ser : M → List Byte} {ld : List Byte → Out M} {comp : Conf → M}
    (hfmt : FormatOk ser ld comp) {R : ProgRun Conf} (hR : R.Distinct) (sched : List ℕ) {w : TWorld Conf M}
    (h : WorldOk one ser comp R w) (i : ℕ) (hi : i < R.n) :
    ((sched.foldl (TWorld.tick one ser ld comp R) w).pcs i).left one (ser (comp (R.conf i))).length ≤
      (w.pcs i).left one (ser (comp (R.conf i))).length - sched.count i := by
  induction sched generalizing w with
  | nil => simp
  | cons j s ih =>
    have hw := world_tick hfmt hR h j
    refine le_trans (ih hw) ?_
    by_cases e : j = i
    · subst e
      rw [List.count_cons_self]
      have ha := hw.alive
      unfold TWorld.tick at ha ⊢
      rw [if_neg (by rw [h.alive]; simp [hi])] at ha ⊢
      dsimp only at ha ⊢
      rw [Function.update_self]
      have := left_tick ha
      omega
    · rw [List.count_cons_of_ne (by simpa using e)]
      have : (w.tick one ser ld comp R j).pcs i = w.pcs i := by
        unfold TWorld.tick
        split_ifs
        · rfl
        · dsimp only; rw [Function.update_of_ne (fun h => e h.symm)]
      rw [this]

/-! ## Property C93 -/

/-- The configurations of the iterations of a run are all different. -/
def ProgRun.ConfsDistinct (R : ProgRun Conf) : Prop := ∀ i < R.n, ∀ j < R.n, R.conf i = R.conf j → i = j

omit [DecidableEq Conf] in
theorem distinct_of {R : ProgRun Conf} (h1 : R.ConfsDistinct) (h2 : R.gens.Nodup) : R.Distinct := by
  intro i hi j hj
  refine ⟨h1 i hi j hj, fun e => ?_⟩
  exact List.inj_on_of_nodup_map h2 (List.mem_range.mpr hi) (List.mem_range.mpr hj) e

/-- A matrix that the file format stores faithfully (see C64). -/
def HMat.Storable (cplx : Bool) (h : HMat) : Prop :=
  h.entries.Fits ∧ h.basis.Fits ∧ h.entries.RealIf cplx ∧ h.basis.RealIf cplx ∧ h.entries.NotOnlyLast ∧ h.basis.NotOnlyLast

omit [DecidableEq Conf] in
theorem formatOk_of {cplx : Bool} {comp : Conf → HMat} (h : ∀ c, (comp c).Storable cplx) :
    FormatOk (HMat.serialize cplx) (HMat.deserialize cplx) comp :=
  ⟨fun c => C64_matrix_file_partial cplx _ (h c).1 (h c).2.1 (h c).2.2.1 (h c).2.2.2.1 (h c).2.2.2.2.1 (h c).2.2.2.2.2,
    fun c p q e hq => prefix_rejected cplx _ (h c).1 (h c).2.1 p q e hq⟩

/-- **C93.** Let the cache directory have any history of runs of the program, each executed with any schedule of
its threads and ended at any point, with configurations that differ within a run and random names that never
repeat.  Then in the next run, however its threads are scheduled and wherever it is looked at:
no exception leaves the parallel region; an iteration that is finished has the matrix of its own configuration,
and the table and the files hold it; and an iteration that is scheduled often enough is finished.
(For the one-atom program, `one`, only if the table exists already: see `C93_table_race_fails`.) -/
theorem C93_schedules_partial (cplx one : Bool) (comp : Conf → HMat) (hM : ∀ c, (comp c).Storable cplx)
    (hist : List (ProgRun Conf)) (R : ProgRun Conf) (hconf : ∀ R' ∈ hist ++ [R], R'.ConfsDistinct)
    (hgen : ((hist ++ [R]).flatMap ProgRun.gens).Nodup)
    (htab : one = true → (diskAfter one (HMat.serialize cplx) (HMat.deserialize cplx) comp hist).table = true) :
    let w := R.exec one (HMat.serialize cplx) (HMat.deserialize cplx) comp
      (diskAfter one (HMat.serialize cplx) (HMat.deserialize cplx) comp hist)
    w.sh.dead = false ∧ ∀ i < R.n,
      (∀ u m, w.pcs i = .done u m → m = comp (R.conf i) ∧ (u, R.conf i) ∈ w.sh.rows ∧
        w.sh.files u = ⟨some (some (R.conf i)), some ((comp (R.conf i)).serialize cplx)⟩) ∧
      (((comp (R.conf i)).serialize cplx).length + 10 ≤ R.sched.count i →
        ∃ u, w.pcs i = .done u (comp (R.conf i))) := by
  intro w
  have hfmt := formatOk_of hM
  have hnd : ∀ R' ∈ hist ++ [R], R'.gens.Nodup := by
    intro R' hR'
    rw [List.nodup_flatMap] at hgen
    exact hgen.1 R' hR'
  have hD : ∀ R' ∈ hist ++ [R], R'.Distinct := fun R' h => distinct_of (hconf R' h) (hnd R' h)
  have hRD := hD R (by simp)
  rw [List.flatMap_append, List.nodup_append] at hgen
  obtain ⟨g1, -, g3⟩ := hgen
  obtain ⟨d1, d2⟩ := diskAfter_ok (one := one) hfmt hist (fun R' h => hD R' (by simp [h])) g1
  have w0 : WorldOk one (HMat.serialize cplx) comp R (TWorld.init (M := HMat)
      (diskAfter one (HMat.serialize cplx) (HMat.deserialize cplx) comp hist)) := by
    refine ⟨d1.congr rfl rfl, rfl, ?_, ?_, ?_⟩
    · cases one
      · exact Or.inr ⟨rfl, rfl⟩
      · exact Or.inl (htab rfl)
    · intro i hi
      cases one
      · exact Or.inr ⟨rfl, Or.inl rfl⟩
      · exact Or.inl (htab rfl)
    · intro i hi hm
      refine g3 _ (d2 _ hm) (R.gen i) ?_ rfl
      simp only [List.flatMap_cons, List.flatMap_nil, List.append_nil]
      exact (mem_gens R _).mpr ⟨i, hi, rfl⟩
  have hw : WorldOk one (HMat.serialize cplx) comp R w := world_run hfmt hRD R.sched w0
  have hfin : ∀ i < R.n, ∀ u m, w.pcs i = .done u m → m = comp (R.conf i) ∧ (u, R.conf i) ∈ w.sh.rows ∧
        w.sh.files u = ⟨some (some (R.conf i)), some ((comp (R.conf i)).serialize cplx)⟩ := by
    intro i hi u m e
    have := hw.pcs i hi
    rw [e] at this
    exact ⟨this.2.1, this.1, this.2.2⟩
  refine ⟨hw.alive, fun i hi => ⟨hfin i hi, fun hc => ?_⟩⟩
  have hl := left_run (ld := HMat.deserialize cplx) hfmt hRD R.sched w0 i hi
  have e0 : ((TWorld.init (M := HMat) (diskAfter one (HMat.serialize cplx) (HMat.deserialize cplx) comp hist)).pcs i).left
      one ((comp (R.conf i)).serialize cplx).length = ((comp (R.conf i)).serialize cplx).length + 10 := rfl
  rw [e0] at hl
  have hz : (w.pcs i).left one ((comp (R.conf i)).serialize cplx).length = 0 :=
    Nat.le_zero.mp (le_trans hl (by omega))
  obtain ⟨u, m, e⟩ := left_zero hz
  exact ⟨u, by rw [e, (hfin i hi u m e).1]⟩

/-- A diagonal 2×2 matrix in the unit basis. -/
def exStored : HMat := ⟨⟨2, [[(0, (5, 0))], [(1, (7, 0))]]⟩, ⟨2, [[(0, (1, 0))], [(1, (1, 0))]]⟩⟩

theorem exStored_ok : exStored.Storable false := by
  refine ⟨?_, ?_, ?_, ?_, ?_, ?_⟩
  · refine ⟨by decide, by decide, by decide, ?_⟩
    decide
  · refine ⟨by decide, by decide, by decide, ?_⟩
    decide
  · intro _; decide
  · intro _; decide
  · unfold Sparse.NotOnlyLast; decide
  · unfold Sparse.NotOnlyLast; decide

/-- Two runs of the two-atom program with three steps each, the first one killed in the middle, with the threads
interleaved: the hypotheses hold. -/
example :
    let R1 : ProgRun ℕ := ⟨3, id, fun i => i, [0, 1, 2, 2, 1, 0, 0, 0, 1, 2, 1, 0]⟩
    let R2 : ProgRun ℕ := ⟨3, id, fun i => i + 10, (List.range 3000).map (· % 3)⟩
    (∀ c : ℕ, ((fun _ => exStored) c).Storable false) ∧ (∀ R' ∈ [R1] ++ [R2], R'.ConfsDistinct) ∧
    (([R1] ++ [R2]).flatMap ProgRun.gens).Nodup := by
  refine ⟨fun _ => exStored_ok, ?_, by decide⟩
  intro R' hR'
  simp only [List.cons_append, List.nil_append, List.mem_cons, List.not_mem_nil, or_false] at hR'
  rcases hR' with rfl | rfl <;> exact fun i _ j _ h => h

/-- The one-atom program after a run with one step, which has created the table: the additional hypothesis
holds. -/
example (comp : ℕ → HMat) : (diskAfter true (HMat.serialize false) (HMat.deserialize false) comp
    [⟨1, id, id, [0, 0, 0]⟩]).table = true := rfl

/-- **C93, violated by the one-atom program** (HamiltonianOne.cpp:515): the flag is cleared before the table is
created.  On a new database with at least two steps there is a schedule after which the program is dead: the second
thread sees the cleared flag and selects from a table that does not exist. -/
theorem C93_table_race_fails (ser : M → List Byte) (ld : List Byte → Out M) (comp : Conf → M) (n : ℕ) (hn : 2 ≤ n)
    (conf : ℕ → Conf) (gen : ℕ → ℕ) (rest : List ℕ) :
    let R : ProgRun Conf := ⟨n, conf, gen, [0, 0, 1, 1] ++ rest⟩
    (R.exec true ser ld comp (Shared.empty Conf)).sh.dead = true ∧
    ∀ i, ∀ u m, (R.exec true ser ld comp (Shared.empty Conf)).pcs i ≠ .done u m := by
  have h0 : 0 < n := by omega
  have h1 : 1 < n := by omega
  intro R
  have key : R.exec true ser ld comp (Shared.empty Conf) =
      ⟨⟨false, false, [], fun _ => ⟨none, none⟩, true⟩,
        Function.update (Function.update (Function.update (Function.update (fun _ => .start) 0 .setFlag) 0 .create) 1
          .select) 1 .select⟩ := by
    have hdead : ∀ (s : List ℕ) (w : TWorld Conf M), w.sh.dead = true →
        s.foldl (TWorld.tick true ser ld comp R) w = w := by
      intro s
      induction s with
      | nil => intro w _; rfl
      | cons i s ih =>
        intro w hw
        rw [List.foldl_cons]
        have : w.tick true ser ld comp R i = w := by unfold TWorld.tick; rw [if_pos (Or.inl hw)]
        rw [this]; exact ih w hw
    unfold ProgRun.exec
    show ([0, 0, 1, 1] ++ rest).foldl (TWorld.tick true ser ld comp R) _ = _
    rw [List.foldl_append]
    have e : [0, 0, 1, 1].foldl (TWorld.tick true ser ld comp R) (TWorld.init (Shared.empty Conf)) =
      ⟨⟨false, false, [], fun _ => ⟨none, none⟩, true⟩,
        Function.update (Function.update (Function.update (Function.update (fun _ => .start) 0 .setFlag) 0 .create) 1
          .select) 1 .select⟩ := by
      simp [TWorld.tick, TWorld.init, Shared.empty, threadTick, R, h0, h1, Function.update]
    rw [e, hdead _ _ rfl]
  rw [key]
  refine ⟨rfl, fun i u m h => ?_⟩
  dsimp only at h
  simp only [Function.update_apply] at h
  split_ifs at h

/-- **C93, violated for steps with the same configuration** (fields or distances that agree in their six printed
digits, see C65): both threads look for the row before one of them inserts it, and the second insertion violates
the UNIQUE constraint.  (Two-atom program on a new database.) -/
theorem C93_same_configuration_fails (ser : M → List Byte) (ld : List Byte → Out M) (comp : Conf → M) (n : ℕ)
    (hn : 2 ≤ n) (conf : ℕ → Conf) (hc : conf 0 = conf 1) (gen : ℕ → ℕ) :
    let R : ProgRun Conf := ⟨n, conf, gen, [0, 0, 0, 0, 1, 1, 0, 1]⟩
    (R.exec false ser ld comp (Shared.empty Conf)).sh.dead = true := by
  have h0 : 0 < n := by omega
  have h1 : 1 < n := by omega
  simp [ProgRun.exec, TWorld.tick, TWorld.init, Shared.empty, threadTick, h0, h1, Function.update, hc]

/-- The same two steps one after the other are fine: the second one loads the matrix of the first. -/
example : let R : ProgRun Unit := ⟨2, fun _ => (), id, List.replicate 11 0 ++ List.replicate 11 1⟩
    let w := R.exec false (fun _ : Unit => []) (fun _ => .ok ()) (fun _ => ()) (Shared.empty Unit)
    w.sh.dead = false ∧ w.pcs 0 = .done 0 () ∧ w.pcs 1 = .done 0 () := ⟨rfl, rfl, rfl⟩

end PI
