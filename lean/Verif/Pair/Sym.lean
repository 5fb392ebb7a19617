import Verif.Pair.SymModel
import Verif.Pair.BasisEx

/-!
# C104: the conserved quantities of a pair system
-/

namespace PI

/-- The last value given to a quantity by the calls of a history, `d` if there is none. -/
def lastSet {α : Type} (f : SymCall → Option α) (d : α) (h : List SymCall) : α := ((h.filterMap f).getLast?).getD d

/-- The values given to the four quantities. -/
def SymCall.asPerm : SymCall → Option Par | .perm p => some p | _ => none
/-- The values given to the parity under inversion. -/
def SymCall.asInv : SymCall → Option Par | .inv p => some p | _ => none
/-- The values given to the parity under reflection. -/
def SymCall.asRefl : SymCall → Option Par | .refl p => some p | _ => none
/-- The values given to the momenta. -/
def SymCall.asRot : SymCall → Option (Finset ℤ) | .rot ms => some ms | _ => none
/-- Is the call a setter? -/
def SymCall.isSetter : SymCall → Bool | .get .. => false | _ => true

theorem lastSet_nil {α : Type} (f : SymCall → Option α) (d : α) : lastSet f d [] = d := rfl
theorem lastSet_cons {α : Type} (f : SymCall → Option α) (d : α) (x : SymCall) (h : List SymCall) :
    lastSet f d (x :: h) = lastSet f ((f x).getD d) h := by
  unfold lastSet
  cases hx : f x with
  | none => rw [List.filterMap_cons_none hx]; rfl
  | some v =>
    rw [List.filterMap_cons_some hx, List.getLast?_cons]
    cases (h.filterMap f).getLast? <;> rfl

/-- One call that does not throw. -/
theorem symStep_ok (o : SymObj) (x : SymCall) (hok : (o.step x).1 = .ok ()) (hc : o.compatible = true) :
    (o.step x).2.perm = (x.asPerm).getD o.perm ∧ (o.step x).2.inv = (x.asInv).getD o.inv ∧ (o.step x).2.refl = (x.asRefl).getD o.refl ∧
    (o.step x).2.rot = (x.asRot).getD o.rot ∧ (o.step x).2.compatible = true := by
  cases x with
  | perm p =>
    unfold SymObj.step at hok ⊢
    by_cases h : o.states ≠ []
    · simp only [if_pos h] at hok; cases hok
    · simp only [if_neg h]; exact ⟨rfl, rfl, rfl, rfl, hc⟩
  | inv p =>
    unfold SymObj.step at hok ⊢
    by_cases h : o.states ≠ []
    · simp only [if_pos h] at hok; cases hok
    · simp only [if_neg h]; exact ⟨rfl, rfl, rfl, rfl, hc⟩
  | refl p =>
    unfold SymObj.step at hok ⊢
    dsimp only at hok ⊢
    by_cases h : o.states ≠ []
    · rw [if_pos h] at hok; cases hok
    rw [if_neg h] at hok ⊢
    by_cases hc' : ({ o with refl := p } : SymObj).compatible = true
    · rw [if_pos hc']; exact ⟨rfl, rfl, rfl, rfl, hc'⟩
    · rw [if_neg hc'] at hok; cases hok
  | rot ms =>
    unfold SymObj.step at hok ⊢
    dsimp only at hok ⊢
    by_cases h0 : ARB ∈ ms ∧ 1 < ms.card
    · rw [if_pos h0] at hok; cases hok
    rw [if_neg h0] at hok ⊢
    by_cases h : o.states ≠ []
    · rw [if_pos h] at hok; cases hok
    rw [if_neg h] at hok ⊢
    by_cases hc' : ({ o with rot := ms } : SymObj).compatible = true
    · rw [if_pos hc']; exact ⟨rfl, rfl, rfl, rfl, hc'⟩
    · rw [if_neg hc'] at hok; cases hok
  | get rest lt E S1 S2 left =>
    unfold SymObj.step at hok ⊢
    dsimp only at hok ⊢
    by_cases h : o.states ≠ []
    · rw [if_pos h] at hok ⊢
      by_cases hb : o.basis.isSome
      · rw [if_pos hb]; exact ⟨rfl, rfl, rfl, rfl, hc⟩
      · rw [if_neg hb] at hok; cases hok
    · rw [if_neg h] at hok ⊢
      cases hp : pairBuild { rest with sym := o.sym } lt E S1 S2 with
      | ok B => exact ⟨rfl, rfl, rfl, rfl, hc⟩
      | throw => rw [hp] at hok; cases hok
      | ub => rw [hp] at hok; cases hok

theorem symRun_ok (o : SymObj) (h : List SymCall) (hok : ∀ r ∈ (o.run h).1, r = .ok ()) (hc : o.compatible = true) :
    (o.run h).2.perm = lastSet SymCall.asPerm o.perm h ∧ (o.run h).2.inv = lastSet SymCall.asInv o.inv h ∧
    (o.run h).2.refl = lastSet SymCall.asRefl o.refl h ∧ (o.run h).2.rot = lastSet SymCall.asRot o.rot h ∧ (o.run h).2.compatible = true := by
  induction h generalizing o with
  | nil => exact ⟨rfl, rfl, rfl, rfl, hc⟩
  | cons x xs ih =>
    have e : o.run (x :: xs) = ((o.step x).1 :: ((o.step x).2.run xs).1, ((o.step x).2.run xs).2) := rfl
    rw [e] at hok ⊢
    obtain ⟨h1, h2, h3, h4, h5⟩ := symStep_ok o x (hok _ List.mem_cons_self) hc
    obtain ⟨g1, g2, g3, g4, g5⟩ := ih (o.step x).2 (fun r hr => hok r (List.mem_cons_of_mem _ hr)) h5
    rw [h1] at g1; rw [h2] at g2; rw [h3] at g3; rw [h4] at g4
    simp only [lastSet_cons]
    exact ⟨g1, g2, g3, g4, g5⟩

/-- What `isRefelectionAndRotationCompatible` decides. -/
theorem compatible_iff (o : SymObj) : o.compatible = true ↔ ARB ∈ o.rot ∨ o.refl = .na ∨ ∀ M ∈ o.rot, -M ∈ o.rot := by
  unfold SymObj.compatible
  by_cases h : ARB ∈ o.rot ∨ o.refl = .na
  · rw [if_pos h]; exact ⟨fun _ => h.elim Or.inl fun h => Or.inr (Or.inl h), fun _ => rfl⟩
  · rw [if_neg h, decide_eq_true_eq]
    push Not at h
    exact ⟨fun g => Or.inr (Or.inr g), fun g => (g.resolve_left h.1).resolve_left h.2⟩

/-- **C104, settings.** For all histories of a new pair system in which no call throws: for each conserved quantity the last call of its setter counts, a quantity that is
never set is not conserved; and if both a reflection parity and momenta are conserved, the set of momenta contains with every momentum its negative. -/
theorem C104_settings (h : List SymCall) (hok : ∀ r ∈ (SymObj.fresh.run h).1, r = .ok ()) :
    let o := (SymObj.fresh.run h).2
    o.perm = lastSet SymCall.asPerm .na h ∧ o.inv = lastSet SymCall.asInv .na h ∧ o.refl = lastSet SymCall.asRefl .na h ∧
    o.rot = lastSet SymCall.asRot {ARB} h ∧ (ARB ∈ o.rot ∨ o.refl = .na ∨ ∀ M ∈ o.rot, -M ∈ o.rot) := by
  obtain ⟨h1, h2, h3, h4, h5⟩ := symRun_ok SymObj.fresh h hok (by decide)
  exact ⟨h1, h2, h3, h4, (compatible_iff _).1 h5⟩

/-- **C104, locked.** For all objects that have states (after a getter, also after one that failed late) and all setters: the call throws and changes nothing. So the basis and the
settings never disagree later. -/
theorem C104_locked (o : SymObj) (hs : o.states ≠ []) (x : SymCall) (hx : x.isSetter = true) : o.step x = (.throw, o) := by
  cases x with
  | perm p => unfold SymObj.step; exact if_pos hs
  | inv p => unfold SymObj.step; exact if_pos hs
  | refl p => unfold SymObj.step; exact if_pos hs
  | rot ms =>
    unfold SymObj.step; dsimp only
    by_cases h : ARB ∈ ms ∧ 1 < ms.card
    · exact if_pos h
    · rw [if_neg h]; exact if_pos hs
  | get rest lt E S1 S2 left => cases hx

/-- **C104, locked for good.** After a successful getter, whatever calls follow: the settings and the basis stay the same. -/
theorem C104_frozen (o : SymObj) (hs : o.states ≠ []) (h : List SymCall) : (o.run h).2 = o := by
  induction h generalizing o with
  | nil => rfl
  | cons x xs ih =>
    have e : (o.run (x :: xs)).2 = ((o.step x).2.run xs).2 := rfl
    have hst : (o.step x).2 = o := by
      cases hx : x.isSetter with
      | true => rw [C104_locked o hs x hx]
      | false =>
        cases x with
        | get rest lt E S1 S2 left =>
          unfold SymObj.step; dsimp only
          rw [if_pos hs]
          by_cases hb : o.basis.isSome
          · rw [if_pos hb]
          · rw [if_neg hb]
        | _ => cases hx
    rw [e, hst]; exact ih o hs

/-- **C104, arbitrary momentum.** For all objects: momenta passed together with the marker for an arbitrary momentum are refused, and nothing changes. -/
theorem C104_mixed_momenta (o : SymObj) (ms : Finset ℤ) (M : ℤ) (hM : M ∈ ms) (ha : ARB ∈ ms) (hne : M ≠ ARB) : o.step (.rot ms) = (.throw, o) := by
  unfold SymObj.step; dsimp only
  exact if_pos ⟨ha, Finset.one_lt_card.2 ⟨M, hM, ARB, ha, hne⟩⟩

/-- **C104, refusal.** For all objects without states: a reflection parity is refused exactly if momenta are conserved whose set is not symmetric (and the parity is not NA), momenta
(without the marker) exactly if their set is not symmetric and a reflection parity is conserved. -/
theorem C104_refusal (o : SymObj) (hs : o.states = []) :
    (∀ p, (o.step (.refl p)).1 = .throw ↔ p ≠ .na ∧ ARB ∉ o.rot ∧ ∃ M ∈ o.rot, -M ∉ o.rot) ∧
    (∀ ms : Finset ℤ, ARB ∉ ms → ((o.step (.rot ms)).1 = .throw ↔ o.refl ≠ .na ∧ ∃ M ∈ ms, -M ∉ ms)) ∧
    (∀ p, (o.step (.perm p)).1 = .ok ()) ∧ (∀ p, (o.step (.inv p)).1 = .ok ()) := by
  have hs' : ¬ o.states ≠ [] := fun h => h hs
  refine ⟨fun p => ?_, fun ms ha => ?_, fun p => ?_, fun p => ?_⟩
  · have hc := compatible_iff ({ o with refl := p } : SymObj)
    unfold SymObj.step; dsimp only
    rw [if_neg hs']
    by_cases h : ({ o with refl := p } : SymObj).compatible = true
    · rw [if_pos h]
      refine ⟨fun h' => (by cases h'), fun ⟨h1, h2, M, h3, h4⟩ => ?_⟩
      rcases hc.1 h with g | g | g
      · exact absurd g h2
      · exact absurd g h1
      · exact absurd (g M h3) h4
    · rw [if_neg h]
      rw [hc] at h
      push Not at h
      exact ⟨fun _ => ⟨h.2.1, h.1, h.2.2⟩, fun _ => rfl⟩
  · have hc := compatible_iff ({ o with rot := ms } : SymObj)
    unfold SymObj.step; dsimp only
    rw [if_neg (fun h => ha h.1), if_neg hs']
    by_cases h : ({ o with rot := ms } : SymObj).compatible = true
    · rw [if_pos h]
      refine ⟨fun h' => (by cases h'), fun ⟨h1, M, h3, h4⟩ => ?_⟩
      rcases hc.1 h with g | g | g
      · exact absurd g ha
      · exact absurd g h1
      · exact absurd (g M h3) h4
    · rw [if_neg h]
      rw [hc] at h
      push Not at h
      exact ⟨fun _ => ⟨h.2.1, h.2.2⟩, fun _ => rfl⟩
  · unfold SymObj.step; dsimp only; rw [if_neg hs']
  · unfold SymObj.step; dsimp only; rw [if_neg hs']

theorem symRun_append (o : SymObj) (h h' : List SymCall) :
    (o.run (h ++ h')).1 = (o.run h).1 ++ ((o.run h).2.run h').1 ∧ (o.run (h ++ h')).2 = ((o.run h).2.run h').2 := by
  induction h generalizing o with
  | nil => exact ⟨rfl, rfl⟩
  | cons x xs ih =>
    obtain ⟨h1, h2⟩ := ih (o.step x).2
    have e : ∀ ys, o.run (x :: ys) = ((o.step x).1 :: ((o.step x).2.run ys).1, ((o.step x).2.run ys).2) := fun _ => rfl
    rw [List.cons_append, e, e]
    exact ⟨by rw [h1]; rfl, h2⟩

theorem setters_states (o : SymObj) (h : List SymCall) (hh : ∀ x ∈ h, x.isSetter = true) : (o.run h).2.states = o.states := by
  induction h generalizing o with
  | nil => rfl
  | cons x xs ih =>
    have e : (o.run (x :: xs)).2 = ((o.step x).2.run xs).2 := rfl
    rw [e, ih _ fun y hy => hh y (List.mem_cons_of_mem _ hy)]
    have hx := hh x List.mem_cons_self
    cases x with
    | get => cases hx
    | perm p => unfold SymObj.step; dsimp only; split_ifs <;> rfl
    | inv p => unfold SymObj.step; dsimp only; split_ifs <;> rfl
    | refl p => unfold SymObj.step; dsimp only; split_ifs <;> rfl
    | rot ms => unfold SymObj.step; dsimp only; split_ifs <;> rfl

/-- **C104, the basis.** For all histories of setters followed by a getter in which no call throws, all one-atom systems without artificial states and all other settings:
the basis that the getter builds has the parities and momenta that were set last.
Momenta: every pair state has an allowed total magnetic quantum number. Permutation and reflection: exchanging or reflecting both atoms multiplies every basis vector by the sign
of the parity. (The systems of both atoms are equal where atoms are exchanged; no user-defined states.) -/
theorem C104_basis (h : List SymCall) (hh : ∀ x ∈ h, x.isSetter = true) (rest : PairSet) (lt : AState → AState → Bool) (E : AState → ℝ) (S1 S2 : OneSys)
    (left : List (AState × AState)) (hok : ∀ r ∈ (SymObj.fresh.run (h ++ [.get rest lt E S1 S2 left])).1, r = .ok ())
    (hthr : 0 ≤ rest.thr) (ha1 : NoArt S1) (ha2 : NoArt S2) (hadd : rest.toAdd = []) :
    ∃ B, (SymObj.fresh.run (h ++ [.get rest lt E S1 S2 left])).2.basis = some B ∧
      (∀ ms, lastSet SymCall.asRot {ARB} h = ms → ARB ∉ ms → ∀ s t, (s, t) ∈ B.states → (s.m + t.m) % 2 = 0 → (s.m + t.m) / 2 ∈ ms) ∧
      (lastSet SymCall.asPerm .na h ≠ .na → S1.cols = S2.cols →
        ∀ c ∈ B.cols, ∀ s t, c.2 (t, s) = (if lastSet SymCall.asPerm .na h = .even then -1 else 1) * c.2 (s, t)) ∧
      (lastSet SymCall.asRefl .na h ≠ .na → ∀ c ∈ B.cols, ∀ s t, (s.m + t.m) % 2 = 0 → c.2 (s.refl, t.refl) =
        (if lastSet SymCall.asRefl .na h = .even then 1 else -1) * (signC (s.l + t.l) * signC ((s.j + t.j) / 2) * signC ((s.m + t.m) / 2)) * c.2 (s, t)) ∧
      (lastSet SymCall.asInv .na h ≠ .na → S1.cols = S2.cols → (∀ u ∈ S1.cols, ∀ e ∈ u.2, ∀ e' ∈ u.2, (e.1.l + e'.1.l) % 2 = 0) →
        ∀ c ∈ B.cols, ∀ s t, c.2 (t, s) = (if lastSet SymCall.asInv .na h = .even then -1 else 1) * signC (s.l + t.l) * c.2 (s, t)) := by
  obtain ⟨a1, a2⟩ := symRun_append SymObj.fresh h [.get rest lt E S1 S2 left]
  rw [a1] at hok
  obtain ⟨h1, h2, h3, h4, h5⟩ := C104_settings h fun r hr => hok r (List.mem_append_left _ hr)
  have hs : (SymObj.fresh.run h).2.states = [] := setters_states SymObj.fresh h hh
  set o := (SymObj.fresh.run h).2 with ho
  have hg : (o.step (.get rest lt E S1 S2 left)).1 = .ok () := hok _ (List.mem_append_right _ List.mem_cons_self)
  have hr2 : (o.run [.get rest lt E S1 S2 left]).2 = (o.step (.get rest lt E S1 S2 left)).2 := rfl
  rw [a2, hr2]
  unfold SymObj.step at hg ⊢
  dsimp only at hg ⊢
  rw [if_neg (fun h => h hs)] at hg ⊢
  cases hp : pairBuild { rest with sym := o.sym } lt E S1 S2 with
  | throw => rw [hp] at hg; cases hg
  | ub => rw [hp] at hg; cases hg
  | ok B =>
    refine ⟨B, rfl, ?_, ?_, ?_, ?_⟩
    · intro ms hms ha s t hst hm
      have hrot : o.rot = ms := h4.trans hms
      have e : o.sym.rot = some ms := by unfold SymObj.sym; dsimp only; rw [hrot, if_neg ha]
      refine C74_rotation { rest with sym := o.sym } lt E S1 S2 B ha1 ha2 (by rw [show ({ rest with sym := o.sym } : PairSet).toAdd = [] from hadd]; simp) ms e ?_ hp s t hst hm
      intro hr
      rw [hrot] at h5
      exact (h5.resolve_left ha).resolve_left hr
    · intro hpm hcols c hc s t
      rw [← h1] at hpm ⊢
      exact C41_exchange { rest with sym := o.sym } lt E S1 S2 B hthr hcols hpm hp c hc s t
    · intro hrf c hc s t hm
      rw [← h3] at hrf ⊢
      exact C74_reflection { rest with sym := o.sym } lt E S1 S2 B hthr ha1 ha2 hadd hrf hp c hc s t hm
    · intro hi hcols hpar c hc s t
      rw [← h2] at hi ⊢
      exact C74_inversion { rest with sym := o.sym } lt E S1 S2 B hthr hcols ha1 hpar
        (by rw [show ({ rest with sym := o.sym } : PairSet).toAdd = [] from hadd]; simp) hi hp c hc s t

end PI
