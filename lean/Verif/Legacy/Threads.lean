import Verif.Legacy.ThreadsModel
import Verif.Matfile.Props
import Mathlib.Data.List.Nodup

/-! # Property C93: the parallel loops of the legacy program do not depend on the schedule -/

namespace PI

variable {Conf M : Type} [DecidableEq Conf]

/-- What holds of the disk. -/
structure DiskOk (ser : M → List Byte) (comp : Conf → M) (σ : Shared Conf) : Prop where
  uuids : (σ.rows.map Prod.fst).Nodup
  confs : (σ.rows.map Prod.snd).Nodup
  files : ∀ r ∈ σ.rows, FilesOk ser r.2 (comp r.2) (σ.files r.1)
  fresh : ∀ u, u ∉ σ.rows.map Prod.fst → σ.files u = ⟨none, none⟩

omit [DecidableEq Conf] in
theorem DiskOk.congr {ser : M → List Byte} {comp : Conf → M} {σ σ' : Shared Conf} (h : DiskOk ser comp σ)
    (hr : σ'.rows = σ.rows) (hf : σ'.files = σ.files) : DiskOk ser comp σ' := by
  obtain ⟨h1, h2, h3, h4⟩ := h
  exact ⟨hr ▸ h1, hr ▸ h2, by rw [hr, hf]; exact h3, by rw [hr, hf]; exact h4⟩

/-- What holds of an iteration at its position. -/
def PCOk (ser : M → List Byte) (comp : Conf → M) (conf : Conf) (g : ℕ) (σ : Shared Conf) : ThreadPC M → Prop
  | .start | .setFlag | .create | .select => g ∉ σ.rows.map Prod.fst
  | .insert => g ∉ σ.rows.map Prod.fst ∧ conf ∉ σ.rows.map Prod.snd
  | .update u | .checkMat u => (u, conf) ∈ σ.rows
  | .checkJson u => (u, conf) ∈ σ.rows ∧ (σ.files u).mat.isSome
  | .truncJson u => (u, conf) ∈ σ.rows ∧ (σ.files u).mat = none
  | .writeJson u => (u, conf) ∈ σ.rows ∧ (σ.files u).mat = none
  | .load u => (u, conf) ∈ σ.rows ∧ (σ.files u).mat.isSome
  | .write u _ => (u, conf) ∈ σ.rows ∧ (σ.files u).json = some (some conf)
  | .done u m => (u, conf) ∈ σ.rows ∧ m = comp conf ∧
      σ.files u = ⟨some (some conf), some (ser (comp conf))⟩

/-- Table and flag. -/
def FlagOk (one : Bool) (σ : Shared Conf) : Prop := σ.table = true ∨ (one = false ∧ σ.flag = true)

/-- Position and table. -/
def TableOk (one : Bool) (σ : Shared Conf) (p : ThreadPC M) : Prop :=
  σ.table = true ∨ (one = false ∧ (p = .start ∨ p = .create))

omit [DecidableEq Conf] in
theorem row_unique {ser : M → List Byte} {comp : Conf → M} {σ : Shared Conf} (h : DiskOk ser comp σ) {u u' : ℕ}
    {c c' : Conf} (h1 : (u, c) ∈ σ.rows) (h2 : (u', c') ∈ σ.rows) : u = u' ↔ c = c' := by
  constructor
  · rintro rfl
    have := List.inj_on_of_nodup_map h.uuids h1 h2 rfl
    exact (Prod.mk.inj this).2
  · rintro rfl
    have := List.inj_on_of_nodup_map h.confs h1 h2 rfl
    exact (Prod.mk.inj this).1

/-- The files of other names are not touched, rows are only added. -/
structure Extends (σ σ' : Shared Conf) (g : ℕ) (conf : Conf) : Prop where
  rows : σ'.rows = σ.rows ∨ σ'.rows = σ.rows ++ [(g, conf)]
  files : ∀ u, (∃ c, (u, c) ∈ σ.rows ∧ c ≠ conf) → σ'.files u = σ.files u

omit [DecidableEq Conf] in
theorem PCOk.other {ser : M → List Byte} {comp : Conf → M} {σ σ' : Shared Conf} {g g' : ℕ} {conf conf' : Conf}
    (hx : Extends σ σ' g conf) (hg : g' ≠ g) (hc : conf' ≠ conf) (p : ThreadPC M)
    (h : PCOk ser comp conf' g' σ p) : PCOk ser comp conf' g' σ' p := by
  have m1 : ∀ {u}, (u, conf') ∈ σ.rows → (u, conf') ∈ σ'.rows := by
    intro u hu
    rcases hx.rows with h | h <;> rw [h]
    · exact hu
    · simp [hu]
  have m2 : g' ∉ σ.rows.map Prod.fst → g' ∉ σ'.rows.map Prod.fst := by
    intro hu
    rcases hx.rows with h | h <;> rw [h]
    · exact hu
    · simp only [List.map_append, List.mem_append, not_or]
      exact ⟨hu, by simpa using hg⟩
  have m3 : conf' ∉ σ.rows.map Prod.snd → conf' ∉ σ'.rows.map Prod.snd := by
    intro hu
    rcases hx.rows with h | h <;> rw [h]
    · exact hu
    · simp only [List.map_append, List.mem_append, not_or]
      exact ⟨hu, by simpa using hc⟩
  have m4 : ∀ {u}, (u, conf') ∈ σ.rows → σ'.files u = σ.files u := fun hu => hx.files _ ⟨conf', hu, hc⟩
  cases p <;> simp only [PCOk] at h ⊢
  · exact m2 h
  · exact m2 h
  · exact m2 h
  · exact m2 h
  · exact m1 h
  · exact ⟨m2 h.1, m3 h.2⟩
  · exact m1 h
  all_goals (have h1 := h.1; refine ⟨m1 h1, ?_⟩; rw [m4 h1]; exact h.2)

/-- Assumptions about the file format, for the matrices that are computed: complete files give the matrix,
incomplete ones are refused. -/
structure FormatOk (ser : M → List Byte) (ld : List Byte → Out M) (comp : Conf → M) : Prop where
  full : ∀ c, ld (ser (comp c)) = .ok (comp c)
  part : ∀ c p q, p ++ q = ser (comp c) → q ≠ [] → ld p = .throw

theorem setFiles_disk {ser : M → List Byte} {comp : Conf → M} {σ : Shared Conf} (h : DiskOk ser comp σ) {u : ℕ}
    {conf : Conf} (hu : (u, conf) ∈ σ.rows) {d : CacheFiles Conf} (hd : FilesOk ser conf (comp conf) d) :
    DiskOk ser comp (σ.setFiles u d) ∧ ∀ g, Extends σ (σ.setFiles u d) g conf := by
  refine ⟨⟨h.uuids, h.confs, ?_, ?_⟩, fun g => ⟨Or.inl rfl, ?_⟩⟩
  · rintro ⟨u', c'⟩ hr
    have hr' : (u', c') ∈ σ.rows := hr
    by_cases e : u' = u
    · subst e
      have ec := (row_unique h hr' hu).mp rfl
      subst ec
      simpa [Shared.setFiles] using hd
    · simpa [Shared.setFiles, Function.update_of_ne e] using h.files _ hr'
  · intro u' hu'
    have hne : u' ≠ u := by
      rintro rfl
      exact hu' (List.mem_map.mpr ⟨_, hu, rfl⟩)
    have := h.fresh u' hu'
    simpa [Shared.setFiles, Function.update_of_ne hne] using this
  · rintro u' ⟨c', hc', hne⟩
    have : u' ≠ u := by
      rintro rfl
      exact hne ((row_unique h hc' hu).mp rfl)
    simp [Shared.setFiles, Function.update_of_ne this]

/-- One action keeps everything, and nothing throws. -/
theorem threadTick_ok {one : Bool} {ser : M → List Byte} {ld : List Byte → Out M} {comp : Conf → M}
    (hfmt : FormatOk ser ld comp) {σ : Shared Conf} (h : DiskOk ser comp σ) (hd : σ.dead = false)
    (hfl : FlagOk one σ) {conf : Conf} {g : ℕ} {p : ThreadPC M} (ht : TableOk one σ p) (hp : PCOk ser comp conf g σ p) :
    let r := threadTick one ser ld conf g (comp conf) σ p
    DiskOk ser comp r.1 ∧ r.1.dead = false ∧ FlagOk one r.1 ∧ TableOk one r.1 r.2 ∧ PCOk ser comp conf g r.1 r.2 ∧
    Extends σ r.1 g conf ∧ (σ.table = true → r.1.table = true) := by
  have refl : Extends σ σ g conf := ⟨Or.inl rfl, fun _ _ => rfl⟩
  have tbl : p ≠ .start → p ≠ .create → σ.table = true := by
    intro h1 h2
    rcases ht with h | ⟨-, h | h⟩
    · exact h
    · exact absurd h h1
    · exact absurd h h2
  cases p with
  | start =>
    simp only [threadTick]
    refine ⟨h, hd, hfl, ?_, ?_, refl, fun h => h⟩
    · rcases hfl with h1 | ⟨h1, h2⟩
      · exact Or.inl h1
      · right
        refine ⟨h1, Or.inr ?_⟩
        rw [h1, h2]; rfl
    · have : g ∉ σ.rows.map Prod.fst := hp
      cases σ.flag <;> cases one <;> exact this
  | setFlag =>
    have htb := tbl (by simp) (by simp)
    simp only [threadTick]
    refine ⟨h.congr rfl rfl, hd, Or.inl htb, Or.inl htb, ?_, ⟨Or.inl rfl, fun _ _ => rfl⟩, fun h => h⟩
    have : g ∉ σ.rows.map Prod.fst := hp
    cases one <;> exact this
  | create =>
    simp only [threadTick]
    refine ⟨h.congr rfl rfl, hd, Or.inl rfl, Or.inl rfl, ?_, ⟨Or.inl rfl, fun _ _ => rfl⟩, fun _ => trivial⟩
    have : g ∉ σ.rows.map Prod.fst := hp
    cases one <;> exact this
  | select =>
    have htb := tbl (by simp) (by simp)
    simp only [threadTick, htb, if_true]
    cases hfind : σ.rows.find? (fun r => decide (r.2 = conf)) with
    | some r =>
      dsimp only
      refine ⟨h, hd, hfl, Or.inl htb, ?_, refl, fun _ => htb⟩
      have h1 := List.mem_of_find?_eq_some hfind
      have h2 := List.find?_some hfind
      simp only [decide_eq_true_eq] at h2
      simp only [PCOk]
      rw [← h2]; exact h1
    | none =>
      dsimp only
      refine ⟨h, hd, hfl, Or.inl htb, ⟨hp, ?_⟩, refl, fun _ => htb⟩
      rw [List.find?_eq_none] at hfind
      intro hc
      obtain ⟨r, hr, rfl⟩ := List.mem_map.mp hc
      exact hfind r hr (by simp)
  | update u =>
    have htb := tbl (by simp) (by simp)
    exact ⟨h, hd, hfl, Or.inl htb, hp, refl, fun h => h⟩
  | insert =>
    have htb := tbl (by simp) (by simp)
    obtain ⟨p1, p2⟩ := hp
    simp only [threadTick]
    have hany : σ.rows.any (fun r => decide (r.1 = g) || decide (r.2 = conf)) = false := by
      rw [List.any_eq_false]
      rintro r hr
      simp only [Bool.or_eq_true, decide_eq_true_eq, not_or]
      exact ⟨fun e => p1 (List.mem_map.mpr ⟨r, hr, e⟩), fun e => p2 (List.mem_map.mpr ⟨r, hr, e⟩)⟩
    rw [if_neg (by rw [hany]; simp)]
    refine ⟨⟨?_, ?_, ?_, ?_⟩, hd, Or.inl htb, Or.inl htb, ?_, ⟨Or.inr rfl, fun _ _ => rfl⟩, fun h => h⟩
    · simp only [List.map_append, List.map_cons, List.map_nil]
      exact List.nodup_append.mpr ⟨h.uuids, by simp, by
        intro a ha b hb e
        simp only [List.mem_singleton] at hb
        exact p1 (by rw [← hb, ← e]; exact ha)⟩
    · simp only [List.map_append, List.map_cons, List.map_nil]
      exact List.nodup_append.mpr ⟨h.confs, by simp, by
        intro a ha b hb e
        simp only [List.mem_singleton] at hb
        exact p2 (by rw [← hb, ← e]; exact ha)⟩
    · intro r hr
      rcases List.mem_append.mp hr with h1 | h1
      · exact h.files r h1
      · simp only [List.mem_singleton] at h1
        subst h1
        dsimp only
        rw [h.fresh g p1]
        intro b hb; cases hb
    · intro u hu
      refine h.fresh u (fun hu' => hu ?_)
      simp only [List.map_append, List.mem_append]
      exact Or.inl hu'
    · simp [PCOk]
  | checkMat u =>
    have htb := tbl (by simp) (by simp)
    simp only [threadTick]
    refine ⟨h, hd, hfl, Or.inl htb, ?_, refl, fun h => h⟩
    have hp' : (u, conf) ∈ σ.rows := hp
    cases hm : (σ.files u).mat with
    | none => simp only [Option.isSome_none]; exact ⟨hp', hm⟩
    | some b => simp only [Option.isSome_some]; exact ⟨hp', by rw [hm]; rfl⟩
  | checkJson u =>
    have htb := tbl (by simp) (by simp)
    obtain ⟨p1, p2⟩ := hp
    obtain ⟨b, hb⟩ := Option.isSome_iff_exists.mp p2
    obtain ⟨hj, -⟩ := h.files _ p1 b hb
    dsimp only at hj
    simp only [threadTick, hj, if_true]
    exact ⟨h, hd, hfl, Or.inl htb, ⟨p1, p2⟩, refl, fun h => h⟩
  | truncJson u =>
    have htb := tbl (by simp) (by simp)
    obtain ⟨p1, p2⟩ := hp
    simp only [threadTick]
    have hd' : FilesOk ser conf (comp conf) { σ.files u with json := some none } := by
      intro b hb
      dsimp only at hb
      rw [p2] at hb; cases hb
    obtain ⟨e1, e2⟩ := setFiles_disk h p1 hd'
    refine ⟨e1, hd, ?_, Or.inl htb, ⟨p1, ?_⟩, e2 g, fun h => h⟩
    · exact Or.inl htb
    · simp [Shared.setFiles, p2]
  | writeJson u =>
    have htb := tbl (by simp) (by simp)
    obtain ⟨p1, p2⟩ := hp
    simp only [threadTick]
    have hd' : FilesOk ser conf (comp conf) { σ.files u with json := some (some conf) } := by
      intro b hb
      dsimp only at hb
      rw [p2] at hb; cases hb
    obtain ⟨e1, e2⟩ := setFiles_disk h p1 hd'
    refine ⟨e1, hd, ?_, Or.inl htb, ⟨p1, ?_⟩, e2 g, fun h => h⟩
    · exact Or.inl htb
    · simp [Shared.setFiles]
  | load u =>
    have htb := tbl (by simp) (by simp)
    obtain ⟨p1, p2⟩ := hp
    obtain ⟨b, hb⟩ := Option.isSome_iff_exists.mp p2
    obtain ⟨hj, q, hq⟩ := h.files _ p1 b hb
    dsimp only at hj hq
    simp only [threadTick, hb, Option.getD_some]
    by_cases hqn : q = []
    · rw [hqn, List.append_nil] at hq
      rw [hq, hfmt.full conf]
      refine ⟨h, hd, hfl, Or.inl htb, ⟨p1, rfl, ?_⟩, refl, fun h => h⟩
      have : σ.files u = ⟨(σ.files u).json, (σ.files u).mat⟩ := rfl
      rw [this, hj, hb, hq]
    · rw [hfmt.part conf b q hq hqn]
      exact ⟨h, hd, hfl, Or.inl htb, ⟨p1, hj⟩, refl, fun h => h⟩
  | write u k =>
    have htb := tbl (by simp) (by simp)
    obtain ⟨p1, p2⟩ := hp
    simp only [threadTick]
    have hd' : FilesOk ser conf (comp conf) { σ.files u with mat := some ((ser (comp conf)).take k) } := by
      intro b hb
      simp only [Option.some.injEq] at hb
      exact ⟨p2, by rw [← hb]; exact List.take_prefix _ _⟩
    obtain ⟨e1, e2⟩ := setFiles_disk h p1 hd'
    refine ⟨e1, hd, ?_, Or.inl htb, ?_, e2 g, fun h => h⟩
    · exact Or.inl htb
    · split_ifs with hk
      · refine ⟨p1, ?_⟩
        simp [Shared.setFiles, p2]
      · refine ⟨p1, rfl, ?_⟩
        have : (ser (comp conf)).take k = ser (comp conf) := List.take_of_length_le (by omega)
        simp [Shared.setFiles, p2, this]
  | done u m =>
    have htb := tbl (by simp) (by simp)
    exact ⟨h, hd, hfl, Or.inl htb, hp, refl, fun h => h⟩

/-- What holds of all iterations of a run. -/
structure WorldOk (one : Bool) (ser : M → List Byte) (comp : Conf → M) (R : ProgRun Conf) (w : TWorld Conf M) :
    Prop where
  disk : DiskOk ser comp w.sh
  alive : w.sh.dead = false
  flag : FlagOk one w.sh
  table : ∀ i < R.n, TableOk one w.sh (w.pcs i)
  pcs : ∀ i < R.n, PCOk ser comp (R.conf i) (R.gen i) w.sh (w.pcs i)

/-- The iterations of a run have different configurations and names. -/
def ProgRun.Distinct (R : ProgRun Conf) : Prop :=
  ∀ i < R.n, ∀ j < R.n, (R.conf i = R.conf j → i = j) ∧ (R.gen i = R.gen j → i = j)

theorem world_tick {one : Bool} {ser : M → List Byte} {ld : List Byte → Out M} {comp : Conf → M}
    (hfmt : FormatOk ser ld comp) {R : ProgRun Conf} (hR : R.Distinct) {w : TWorld Conf M}
    (h : WorldOk one ser comp R w) (i : ℕ) : WorldOk one ser comp R (w.tick one ser ld comp R i) := by
  unfold TWorld.tick
  by_cases hi : i < R.n
  · rw [if_neg (by rw [h.alive]; simp [hi])]
    obtain ⟨a1, a2, a3, a4, a5, a6, a7⟩ := threadTick_ok hfmt h.disk h.alive h.flag (h.table i hi) (h.pcs i hi)
    refine ⟨a1, a2, a3, ?_, ?_⟩
    · intro j hj
      dsimp only
      by_cases e : j = i
      · subst e; rw [Function.update_self]; exact a4
      · rw [Function.update_of_ne e]
        rcases h.table j hj with h1 | h1
        · exact Or.inl (a7 h1)
        · exact Or.inr h1
    · intro j hj
      dsimp only
      by_cases e : j = i
      · subst e; rw [Function.update_self]; exact a5
      · rw [Function.update_of_ne e]
        exact PCOk.other a6 (fun eg => e ((hR j hj i hi).2 eg)) (fun ec => e ((hR j hj i hi).1 ec)) _ (h.pcs j hj)
  · rw [if_pos (Or.inr hi)]; exact h

theorem world_run {one : Bool} {ser : M → List Byte} {ld : List Byte → Out M} {comp : Conf → M}
    (hfmt : FormatOk ser ld comp) {R : ProgRun Conf} (hR : R.Distinct) (sched : List ℕ) {w : TWorld Conf M}
    (h : WorldOk one ser comp R w) : WorldOk one ser comp R (sched.foldl (TWorld.tick one ser ld comp R) w) := by
  induction sched generalizing w with
  | nil => exact h
  | cons i s ih => exact ih (world_tick hfmt hR h i)

end PI
