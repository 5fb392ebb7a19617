import Verif.Field.Props
import Verif.Pair.Multi
import Verif.Pair.Settings
import Verif.Pair.BasisModel

/-!
# Serialization of systems (C58)

`SystemBase::serialize` (SystemBase.hpp:394-408), `SystemOne::serialize` (SystemOne.hpp:168-178), `SystemTwo::serialize`
(SystemTwo.hpp:185-198), `MatrixElementCache::serialize` (MatrixElementCache.hpp:213-238) and the pickling of Python
(Interface.i:65-89, 261-297).  The cereal library is taken to read back exactly what it wrote; the tables of a cache (all ten of
them are serialized) are one value of an arbitrary type `μ`.
-/

namespace PI

/-- A MatrixElementCache (MatrixElementCache.hpp:173-207) without its database handles. -/
structure CacheObj (μ : Type) where
  tables : μ
  method : Method
  dbname : String
  defectdb : String

/-- A new cache, as in `MatrixElementCache()` (MatrixElementCache.cpp:83-84); `t` are empty tables. -/
def CacheObj.fresh {μ : Type} (t : μ) : CacheObj μ := ⟨t, .numerov, "", ""⟩

/-- The memory in which caches live. -/
abbrev Heap (μ : Type) := ℕ → Option (CacheObj μ)

/-- The members of SystemBase (SystemBase.hpp:292-308).  `cache` is the pointer `m_cache`. -/
structure BaseObj (σ : Type) where
  cache : Option ℕ
  thr : ℝ
  energyMin : ℝ
  energyMax : ℝ
  rangeN : Finset ℤ
  rangeL : Finset ℤ
  rangeJ : Finset ℚ
  rangeM : Finset ℚ
  toAdd : List σ
  mem : Bool
  contained : Bool
  needNew : Bool
  states : List (ℕ × σ)
  V : Mat
  H : Mat
  Vc : Mat
  Hc : Mat

/-- The members of SystemOne (SystemOne.hpp:79-98). -/
structure OneObj where
  base : BaseObj AState
  E : Vec3
  B : Vec3
  Esph : ℤ → Option ℂ
  Bsph : ℤ → Option ℂ
  dia : Bool
  diaTerms : ℤ × ℤ → Option ℂ
  charge : ℤ
  order : ℕ
  dist : ℝ
  species : String
  intE : ℤ → Option Mat
  intB : ℤ → Option Mat
  intD : ℤ × ℤ → Option Mat
  intIon : ℤ → Option Mat
  symRefl : Par
  symRot : Finset ℚ

/-- The members of SystemTwo (SystemTwo.hpp:81-114). -/
structure TwoObj where
  base : BaseObj (AState × AState)
  species : String × String
  sys1 : OneObj
  sys2 : OneObj
  intAng : ℤ → Option Mat
  intMul : ℤ → Option Mat
  intDD : ℤ → Option Mat
  intDQ : ℤ → Option Mat
  intQD : ℤ → Option Mat
  leRoy : ℝ
  dist : ℝ
  x : ℝ
  y : ℝ
  z : ℝ
  gt : Bool
  surf : ℝ
  order : ℕ
  symPerm : Par
  symInv : Par
  symRefl : Par
  symRot : Finset ℤ
  angTerms : ℤ → Option ℝ
  ddTerms : ℤ → Option ℝ
  dqTerms : ℤ → Option ℝ
  qdTerms : ℤ → Option ℝ
  pairs : List (ℕ × ℕ)

/-- What is written for a cache (MatrixElementCache.hpp:215-223): `defectdbname` is not. -/
structure CacheArch (μ : Type) where
  method : Method
  dbname : String
  tables : μ

/-- What is written for the base class (SystemBase.hpp:397-404): the pointed-to cache and every other member. -/
structure BaseArch (μ σ : Type) where
  cache : CacheArch μ
  rest : BaseObj σ

/-- What is written for a SystemOne (SystemOne.hpp:170-176), in this order. -/
structure OneArch (μ : Type) where
  base : BaseArch μ AState
  species : String
  E : Vec3
  B : Vec3
  dia : Bool
  symRefl : Par
  symRot : Finset ℚ
  Esph : ℤ → Option ℂ
  Bsph : ℤ → Option ℂ
  diaTerms : ℤ × ℤ → Option ℂ
  intE : ℤ → Option Mat
  intB : ℤ → Option Mat
  intD : ℤ × ℤ → Option Mat

/-- What is written for a SystemTwo (SystemTwo.hpp:187-197), in this order. -/
structure TwoArch (μ : Type) where
  base : BaseArch μ (AState × AState)
  species : String × String
  sys1 : OneArch μ
  sys2 : OneArch μ
  dist : ℝ
  x : ℝ
  y : ℝ
  z : ℝ
  surf : ℝ
  order : ℕ
  symPerm : Par
  symInv : Par
  symRefl : Par
  symRot : Finset ℤ
  angTerms : ℤ → Option ℝ
  ddTerms : ℤ → Option ℝ
  dqTerms : ℤ → Option ℝ
  qdTerms : ℤ → Option ℝ
  intAng : ℤ → Option Mat
  intMul : ℤ → Option Mat
  intDD : ℤ → Option Mat
  intDQ : ℤ → Option Mat
  intQD : ℤ → Option Mat

variable {μ σ : Type}

/-- The object behind `m_cache`; a null or dangling pointer is undefined behaviour. -/
def derefCache (h : Heap μ) (p : Option ℕ) : Out (CacheObj μ) :=
  match p with
  | none => .ub
  | some a => match h a with
    | none => .ub
    | some c => .ok c

/-- Saving a cache (MatrixElementCache.hpp:215-223). -/
def CacheObj.save (c : CacheObj μ) : CacheArch μ := ⟨c.method, c.dbname, c.tables⟩

/-- Loading into an existing cache (MatrixElementCache.hpp:215-238): the name of the defect database stays as it was. -/
def CacheObj.load (c : CacheObj μ) (a : CacheArch μ) : CacheObj μ := { c with method := a.method, dbname := a.dbname, tables := a.tables }

/-- Saving the base class (SystemBase.hpp:394-404). -/
def BaseObj.save (h : Heap μ) (s : BaseObj σ) : Out (BaseArch μ σ) :=
  derefCache h s.cache >>= fun c => .ok ⟨c.save, s⟩

/-- Loading the base class (SystemBase.hpp:394-404): the cache is read into the object that the pointer of the target names. -/
def BaseObj.load (h : Heap μ) (s : BaseObj σ) (a : BaseArch μ σ) : Out (Heap μ × BaseObj σ) :=
  derefCache h s.cache >>= fun c =>
  .ok (fun k => if some k = s.cache then some (c.load a.cache) else h k, { a.rest with cache := s.cache })

/-- Saving a SystemOne (SystemOne.hpp:168-178). -/
def OneObj.save (h : Heap μ) (s : OneObj) : Out (OneArch μ) :=
  s.base.save h >>= fun b =>
  .ok ⟨b, s.species, s.E, s.B, s.dia, s.symRefl, s.symRot, s.Esph, s.Bsph, s.diaTerms, s.intE, s.intB, s.intD⟩

/-- Loading into a SystemOne (SystemOne.hpp:168-178). -/
def OneObj.load (h : Heap μ) (s : OneObj) (a : OneArch μ) : Out (Heap μ × OneObj) :=
  s.base.load h a.base >>= fun r =>
  .ok (r.1, { s with base := r.2, species := a.species, E := a.E, B := a.B, dia := a.dia, symRefl := a.symRefl, symRot := a.symRot, Esph := a.Esph, Bsph := a.Bsph, diaTerms := a.diaTerms, intE := a.intE, intB := a.intB, intD := a.intD })

/-- Saving a SystemTwo (SystemTwo.hpp:185-198). -/
def TwoObj.save (h : Heap μ) (s : TwoObj) : Out (TwoArch μ) :=
  s.base.save h >>= fun b => s.sys1.save h >>= fun s1 => s.sys2.save h >>= fun s2 =>
  .ok ⟨b, s.species, s1, s2, s.dist, s.x, s.y, s.z, s.surf, s.order, s.symPerm, s.symInv, s.symRefl, s.symRot, s.angTerms, s.ddTerms, s.dqTerms, s.qdTerms,
    s.intAng, s.intMul, s.intDD, s.intDQ, s.intQD⟩

/-- Loading into a SystemTwo (SystemTwo.hpp:185-198). -/
def TwoObj.load (h : Heap μ) (s : TwoObj) (a : TwoArch μ) : Out (Heap μ × TwoObj) :=
  s.base.load h a.base >>= fun r => s.sys1.load r.1 a.sys1 >>= fun r1 => s.sys2.load r1.1 a.sys2 >>= fun r2 =>
  .ok (r2.1, { s with
    base := r.2, species := a.species, sys1 := r1.2, sys2 := r2.2, dist := a.dist, x := a.x, y := a.y, z := a.z, surf := a.surf, order := a.order
    symPerm := a.symPerm, symInv := a.symInv, symRefl := a.symRefl, symRot := a.symRot, angTerms := a.angTerms, ddTerms := a.ddTerms
    dqTerms := a.dqTerms, qdTerms := a.qdTerms, intAng := a.intAng, intMul := a.intMul, intDD := a.intDD, intDQ := a.intDQ, intQD := a.intQD })

/-- An empty matrix. -/
noncomputable def emptyMat : Mat := ⟨0, 0, fun _ _ => 0⟩

/-- `SystemBase(cache)` (SystemBase.cpp:1298-1301, SystemBase.hpp:292-308). -/
noncomputable def BaseObj.fresh (σ : Type) (p : ℕ) : BaseObj σ :=
  ⟨some p, 0.05, -dblMax, dblMax, ∅, ∅, ∅, ∅, [], false, false, false, [], emptyMat, emptyMat, emptyMat, emptyMat⟩

/-- The value of `ARB` (Constants.hpp:43). -/
def arbVal : ℤ := 32767

/-- `SystemOne(species, cache)` (SystemOne.cpp:40-44). -/
noncomputable def OneObj.fresh (species : String) (p : ℕ) : OneObj :=
  ⟨.fresh AState p, ⟨0, 0, 0⟩, ⟨0, 0, 0⟩, fun _ => none, fun _ => none, true, fun _ => none, 0, 0, dblMax, species, fun _ => none, fun _ => none,
    fun _ => none, fun _ => none, .na, {32767}⟩

/-- `SystemTwo(b1, b2, cache)` (SystemTwo.cpp:41-49). -/
noncomputable def TwoObj.fresh (s1 s2 : OneObj) (p : ℕ) : TwoObj :=
  ⟨.fresh (AState × AState) p, (s1.species, s2.species), s1, s2, fun _ => none, fun _ => none, fun _ => none, fun _ => none, fun _ => none, dblMax, dblMax, 0, 0,
    dblMax, false, dblMax, 3, .na, .na, .na, {arbVal}, fun _ => none, fun _ => none, fun _ => none, fun _ => none, []⟩

/-- `__setstate__` of a SystemOne in Python (Interface.i:265-270): a temporary cache at a free address, a new system that refers
to it, and loading.  When the function returns, Python destroys the temporary cache; nothing keeps a reference to it. -/
noncomputable def OneObj.setstate (h : Heap μ) (empty : μ) (free : ℕ) (a : OneArch μ) : Out (Heap μ × OneObj) :=
  (OneObj.fresh "" free).load (fun k => if k = free then some (.fresh empty) else h k) a >>= fun r =>
  .ok (fun k => if k = free then none else r.1 k, r.2)

/-- `__setstate__` of a SystemTwo in Python (Interface.i:275-284, 288-297); the copies of the temporary one-atom systems are
members. -/
noncomputable def TwoObj.setstate (h : Heap μ) (empty : μ) (free : ℕ) (a : TwoArch μ) : Out (Heap μ × TwoObj) :=
  (TwoObj.fresh (OneObj.fresh "" free) (OneObj.fresh "" free) free).load (fun k => if k = free then some (.fresh empty) else h k) a >>= fun r =>
  .ok (fun k => if k = free then none else r.1 k, r.2)

/-- The parameters of the interaction of a SystemOne (`Field/Model.lean`). -/
noncomputable def OneObj.params (s : OneObj) : FieldParams :=
  open Classical in ⟨s.E, s.B, s.dia, s.charge, s.order, if s.dist = dblMax then none else some s.dist⟩

/-- The settings of the interaction of a SystemTwo (`Pair/Model.lean`). -/
def TwoObj.params (s : TwoObj) : PairParams := ⟨s.x, s.y, s.z, s.dist, s.gt, s.surf, s.order⟩

/-! ## Specification -/

/-- Two bases are equal up to the address of the cache, whose contents are equal too. -/
def SameBaseObj (h h' : Heap μ) (s s' : BaseObj σ) : Prop :=
  s' = { s with cache := s'.cache } ∧ ∃ c, derefCache h s.cache = .ok c ∧ derefCache h' s'.cache = .ok c

/-- Nothing about the one-atom system differs: all members and the contents of its cache. -/
def SameOneObj (h h' : Heap μ) (s s' : OneObj) : Prop := SameBaseObj h h' s.base s'.base ∧ s' = { s with base := s'.base }

/-- Nothing about the two-atom system differs. -/
def SameTwoObj (h h' : Heap μ) (s s' : TwoObj) : Prop :=
  SameBaseObj h h' s.base s'.base ∧ SameOneObj h h' s.sys1 s'.sys1 ∧ SameOneObj h h' s.sys2 s'.sys2 ∧ s' = { s with base := s'.base, sys1 := s'.sys1, sys2 := s'.sys2 }

/-- The one-atom settings that are not written have their initial values. -/
def OneObj.NoIon (s : OneObj) : Prop := s.charge = 0 ∧ s.order = 0 ∧ s.dist = dblMax ∧ s.intIon = fun _ => none

/-! ## Theorems -/

theorem derefCache_some {h : Heap μ} {p : ℕ} {c : CacheObj μ} (hp : h p = some c) : derefCache h (some p) = .ok c := by
  unfold derefCache; simp only [hp]

theorem load_save_cache (c t : CacheObj μ) (hd : c.defectdb = t.defectdb) : t.load c.save = c := by
  cases c; cases t; simp only [CacheObj.load, CacheObj.save] at *; rw [hd]

theorem base_roundtrip (h : Heap μ) (s t : BaseObj σ) (p : ℕ) (c ct : CacheObj μ) (ht : t.cache = some p) (hp : h p = some ct)
    (hd : c.defectdb = ct.defectdb) (h0 : Heap μ) (h0s : derefCache h0 s.cache = .ok c) :
    ∃ a, s.save h0 = .ok a ∧ t.load h a = .ok (fun k => if k = p then some c else h k, { s with cache := some p }) := by
  refine ⟨⟨c.save, s⟩, by unfold BaseObj.save; rw [h0s]; rfl, ?_⟩
  unfold BaseObj.load
  rw [ht, derefCache_some hp]
  simp only [Out.ok_bind, load_save_cache c ct hd, Option.some.injEq]

theorem one_roundtrip (h h0 : Heap μ) (s t : OneObj) (p : ℕ) (c ct : CacheObj μ) (h0s : derefCache h0 s.base.cache = .ok c) (ht : t.base.cache = some p)
    (hp : h p = some ct) (hd : c.defectdb = ct.defectdb) :
    ∃ a, s.save h0 = .ok a ∧ t.load h a = .ok (fun k => if k = p then some c else h k,
      { s with base := { s.base with cache := some p }, charge := t.charge, order := t.order, dist := t.dist, intIon := t.intIon }) := by
  obtain ⟨a, ha, hl⟩ := base_roundtrip h s.base t.base p c ct ht hp hd h0 h0s
  refine ⟨⟨a, s.species, s.E, s.B, s.dia, s.symRefl, s.symRot, s.Esph, s.Bsph, s.diaTerms, s.intE, s.intB, s.intD⟩, ?_, ?_⟩
  · unfold OneObj.save; rw [ha]; rfl
  · unfold OneObj.load; dsimp only; rw [hl]; rfl

theorem one_noIon (s : OneObj) (sp : String) (p : ℕ) (hi : s.NoIon) :
    ({ s with base := { s.base with cache := some p }, charge := (OneObj.fresh sp p).charge, order := (OneObj.fresh sp p).order,
              dist := (OneObj.fresh sp p).dist, intIon := (OneObj.fresh sp p).intIon } : OneObj) =
    { s with base := { s.base with cache := some p } } := by
  obtain ⟨i1, i2, i3, i4⟩ := hi
  cases s
  simp only [OneObj.fresh] at *
  subst i1; subst i2; subst i3; subst i4
  rfl

/-- **C58 (one-atom systems, partial).** A SystemOne without ion settings, whose cache uses the same defect database as the cache of
the target, is loaded into a new SystemOne without any difference. -/
theorem C58_one_partial (h : Heap μ) (s : OneObj) (sp : String) (p : ℕ) (c ct : CacheObj μ) (hs : derefCache h s.base.cache = .ok c) (hp : h p = some ct)
    (hd : c.defectdb = ct.defectdb) (hi : s.NoIon) :
    ∃ a h' s', s.save h = .ok a ∧ (OneObj.fresh sp p).load h a = .ok (h', s') ∧ SameOneObj h h' s s' := by
  obtain ⟨a, ha, hl⟩ := one_roundtrip h h s (OneObj.fresh sp p) p c ct hs rfl hp hd
  rw [one_noIon s sp p hi] at hl
  exact ⟨a, _, _, ha, hl, ⟨rfl, c, hs, derefCache_some (by simp)⟩, rfl⟩

/-- The hypotheses hold for a system with fields and a built basis. -/
example : ∃ (h : Heap ℕ) (s : OneObj) (c : CacheObj ℕ), derefCache h s.base.cache = .ok c ∧ h 1 = some c ∧ s.NoIon ∧ s.E = ⟨0, 0, 5⟩ ∧ s.base.contained = true :=
  ⟨fun _ => some (.fresh 7), { OneObj.fresh "Rb" 0 with E := ⟨0, 0, 5⟩, base := { BaseObj.fresh AState 0 with contained := true } }, .fresh 7, rfl, rfl,
    ⟨rfl, rfl, rfl, rfl⟩, rfl, rfl⟩

/-- **C58 (one-atom systems, any target).** Whatever the settings, exactly the ion settings are lost: the loaded system has those of
the target and otherwise all members of the saved one. -/
theorem C58_one_general (h : Heap μ) (s t : OneObj) (p : ℕ) (c ct : CacheObj μ) (hs : derefCache h s.base.cache = .ok c) (ht : t.base.cache = some p)
    (hp : h p = some ct) (hd : c.defectdb = ct.defectdb) :
    ∃ a h' s', s.save h = .ok a ∧ t.load h a = .ok (h', s') ∧
      SameOneObj h h' { s with charge := t.charge, order := t.order, dist := t.dist, intIon := t.intIon } s' := by
  obtain ⟨a, ha, hl⟩ := one_roundtrip h h s t p c ct hs ht hp hd
  exact ⟨a, _, _, ha, hl, ⟨rfl, c, hs, derefCache_some (by simp)⟩, rfl⟩

/-- **C58 (two-atom systems, partial).** A SystemTwo whose one-atom systems use the same cache and have no ion settings, without Green tensor, without
a list of one-atom basis vectors and before any check of the Le Roy radius, is loaded without any difference. -/
theorem C58_two_partial (h : Heap μ) (s : TwoObj) (p q : ℕ) (c ct : CacheObj μ) (hq : h q = some c) (hb : s.base.cache = some q) (h1 : s.sys1.base.cache = some q)
    (h2 : s.sys2.base.cache = some q) (hp : h p = some ct) (hd : c.defectdb = ct.defectdb) (i1 : s.sys1.NoIon) (i2 : s.sys2.NoIon) (hgt : s.gt = false)
    (hpairs : s.pairs = []) (hroy : s.leRoy = dblMax) :
    ∃ a h' s', s.save h = .ok a ∧ (TwoObj.fresh (OneObj.fresh "" p) (OneObj.fresh "" p) p).load h a = .ok (h', s') ∧ SameTwoObj h h' s s' := by
  have dq := derefCache_some hq
  have upd : ∀ h' : Heap μ, h' = (fun k => if k = p then some c else h k) → h' p = some c ∧ (fun k => if k = p then some c else h' k) = h' := by
    rintro h' rfl
    refine ⟨by simp, ?_⟩
    funext k
    by_cases hk : k = p <;> simp [hk]
  obtain ⟨e1, e2⟩ := upd _ rfl
  obtain ⟨ab, hab, hlb⟩ := base_roundtrip h s.base (BaseObj.fresh (AState × AState) p) p c ct rfl hp hd h (by rw [hb]; exact dq)
  have one : ∀ (t : OneObj), t.base.cache = some q → t.NoIon → ∃ a, t.save h = .ok a ∧
      (OneObj.fresh "" p).load (fun k => if k = p then some c else h k) a = .ok ((fun k => if k = p then some c else h k), { t with base := { t.base with cache := some p } }) := by
    intro t ht hi
    obtain ⟨a, ha, hl⟩ := one_roundtrip (fun k => if k = p then some c else h k) h t (OneObj.fresh "" p) p c c (by rw [ht]; exact dq) rfl e1 rfl
    rw [e2, one_noIon t "" p hi] at hl
    exact ⟨a, ha, hl⟩
  obtain ⟨a1, s1, l1⟩ := one s.sys1 h1 i1
  obtain ⟨a2, s2, l2⟩ := one s.sys2 h2 i2
  have dp : derefCache (fun k => if k = p then some c else h k) (some p) = .ok c := derefCache_some e1
  refine ⟨⟨ab, s.species, a1, a2, s.dist, s.x, s.y, s.z, s.surf, s.order, s.symPerm, s.symInv, s.symRefl, s.symRot, s.angTerms, s.ddTerms, s.dqTerms, s.qdTerms,
    s.intAng, s.intMul, s.intDD, s.intDQ, s.intQD⟩, fun k => if k = p then some c else h k,
    { s with base := { s.base with cache := some p }, sys1 := { s.sys1 with base := { s.sys1.base with cache := some p } },
             sys2 := { s.sys2 with base := { s.sys2.base with cache := some p } } }, ?_, ?_,
    ⟨rfl, c, by rw [hb]; exact dq, dp⟩, ⟨⟨rfl, c, by rw [h1]; exact dq, dp⟩, rfl⟩, ⟨⟨rfl, c, by rw [h2]; exact dq, dp⟩, rfl⟩, rfl⟩
  · unfold TwoObj.save; rw [hab, s1, s2]; rfl
  · unfold TwoObj.load TwoObj.fresh
    dsimp only
    rw [hlb]
    simp only [Out.ok_bind]
    rw [l1]
    simp only [Out.ok_bind]
    rw [l2]
    simp only [Out.ok_bind]
    rw [← hgt, ← hpairs, ← hroy]

/-- The hypotheses hold for a system with a distance, a surface marker and a symmetry. -/
example : ∃ (h : Heap ℕ) (s : TwoObj) (c : CacheObj ℕ), h 0 = some c ∧ h 1 = some (.fresh 3) ∧ s.base.cache = some 0 ∧ s.sys1.base.cache = some 0 ∧
    s.sys2.base.cache = some 0 ∧ c.defectdb = "" ∧ s.sys1.NoIon ∧ s.sys2.NoIon ∧ s.gt = false ∧ s.pairs = [] ∧ s.leRoy = dblMax ∧ s.z = 5 ∧ s.symInv = .odd :=
  ⟨fun _ => some (.fresh 3), { TwoObj.fresh (OneObj.fresh "Rb" 0) (OneObj.fresh "Cs" 0) 0 with dist := 5, z := 5, symInv := .odd }, .fresh 3, rfl, rfl, rfl, rfl, rfl, rfl,
    ⟨rfl, rfl, rfl, rfl⟩, ⟨rfl, rfl, rfl, rfl⟩, rfl, rfl, rfl, rfl, rfl⟩

/-- The stored Le Roy radius is not written, but this does not matter: as long as it was computed for the current states, the check of
the loaded system gives the same warning and afterwards the same stored value. -/
theorem C58_leroy (L : List RoyState) (hb : RoyBounded L) (hm : RoyMonotone L) (stored d0 d : ℝ) (hst : stored = (royCheck L dblMax d0).2) :
    royCheck L dblMax d = royCheck L stored d := by
  obtain ⟨-, r2, r3⟩ := royCheck_fresh L hb hm d
  obtain ⟨-, q2, q3⟩ := royCheck_fresh L hb hm d0
  have hne : stored ≠ dblMax := by rw [hst]; exact q2
  have hv : stored = (royCheck L dblMax d).2 := by rw [hst, q3, ← r3]
  conv_rhs => rw [hv]
  unfold royCheck at hv ⊢
  simp only [if_true] at hv ⊢
  rw [← hv]
  simp [hne]

/-- **C58 does not hold** for the ion settings: a SystemOne with an ion at distance 1 is loaded as a system without ion, and its Hamiltonian is different. -/
theorem C58_ion_fails (C : FieldConsts) (hke : C.ke ≠ 0) (he : C.elem.e ≠ 0) (radial : RadKey → ℝ) (hr : ∀ k, radial k ≠ 0) (me : Method) (h : Heap μ) (c : CacheObj μ)
    (h0 : h 0 = some c) :
    ∃ (s : OneObj) (a : OneArch μ) (h' : Heap μ) (s' : OneObj) (st : Fin 2 → Option QN), GoodStates st ∧
      s.save h = .ok a ∧ (OneObj.fresh "" 0).load h a = .ok (h', s') ∧
      freshOper (fieldInter C radial me st) 0 1 s.params ≠ freshOper (fieldInter C radial me st) 0 1 s'.params := by
  have d1 : (1 : ℝ) ≠ dblMax := by have := dblMax_big; intro h; linarith
  let s : OneObj := { OneObj.fresh "Sr1" 0 with charge := 1, order := 1, dist := 1, dia := false }
  have hd : derefCache h s.base.cache = .ok c := derefCache_some h0
  obtain ⟨a, h', s', hs, hl, hsame⟩ := C58_one_general h s (OneObj.fresh "" 0) 0 c c hd rfl h0 rfl
  have good : GoodStates (N := 2) (fun i => if i = 0 then some (singlet 0) else some (singlet 1)) := by
    have hcase : ∀ i : Fin 2, ∀ a, (if i = 0 then some (singlet 0) else some (singlet 1)) = some a → a = singlet 0 ∨ a = singlet 1 := by
      intro i a h; split_ifs at h
      · left; exact (Option.some.inj h).symm
      · right; exact (Option.some.inj h).symm
    have ph : ∀ a, a = singlet 0 ∨ a = singlet 1 → a.Physical ∧ a.species = "Sr1" ∧ a.s = 0 := by
      rintro a (rfl | rfl)
      · exact ⟨singlet_physical 0 le_rfl, rfl, rfl⟩
      · exact ⟨singlet_physical 1 (by norm_num), rfl, rfl⟩
    intro i a ha
    have A := ph a (hcase i a ha)
    refine ⟨A.1, fun j b hb => ?_⟩
    have B := ph b (hcase j b hb)
    exact ⟨A.2.1.trans B.2.1.symm, A.2.2.trans B.2.2.symm⟩
  refine ⟨s, a, h', s', _, good, hs, hl, ?_⟩
  have ps : s.params = ⟨⟨0, 0, 0⟩, ⟨0, 0, 0⟩, false, 1, 1, some 1⟩ := by
    unfold OneObj.params
    simp only [s, OneObj.fresh, d1, if_false]
  have ps' : s'.params = ⟨⟨0, 0, 0⟩, ⟨0, 0, 0⟩, false, 0, 0, none⟩ := by
    have := hsame.2
    rw [this]
    unfold OneObj.params
    simp only [s, OneObj.fresh, if_true]
  have z : ∀ q, sph ⟨0, 0, 0⟩ q = 0 := by
    intro q; unfold sph; split_ifs <;> first | rfl | (apply Complex.ext <;> simp)
  have zb : isBig 0 = false := by unfold isBig; simp; norm_num
  rw [ps, ps']
  intro heq
  have hent := congrFun (congrFun heq 0) 1
  have k1 : addKeys ⟨⟨0, 0, 0⟩, ⟨0, 0, 0⟩, false, 1, 1, some 1⟩ = [.ion 1] := by
    unfold addKeys
    simp [z, zb]
  have k2 : addKeys ⟨⟨0, 0, 0⟩, ⟨0, 0, 0⟩, false, 0, 0, none⟩ = [] := by
    unfold addKeys
    simp [z, zb]
  have op := (C37_operators C radial me _ good 0).2.2.2 1
  unfold freshOper at hent
  simp only [fieldInter, k1, k2, List.map_cons, List.map_nil, List.sum_cons, List.sum_nil, op, addCoef] at hent
  simp [tensorMat, singlet] at hent
  have ne := elem_singlet_ne C radial me he hr 1 (by norm_num)
  unfold elem singlet at ne
  simp at ne
  rcases hent with (hent | hent) | hent
  · exact hke hent
  · exact he hent
  · exact ne hent

/-- **C58 does not hold** for the Green tensor: a system with a distance vector off the xz plane builds its Hamiltonian, the loaded one refuses. -/
theorem C58_green_fails (h : Heap μ) (c : CacheObj μ) (h0 : h 0 = some c) :
    ∃ (s : TwoObj) (a : TwoArch μ) (h' : Heap μ) (s' : TwoObj), s.save h = .ok a ∧
      (TwoObj.fresh (OneObj.fresh "" 0) (OneObj.fresh "" 0) 0).load h a = .ok (h', s') ∧
      s.params = runPair [.vector ![0, 1, 0]] ∧ ∀ m, (initPair s.params m).1 = .ok () ∧ (initPair s'.params m).1 = .throw := by
  have d1 : (1 : ℝ) ≠ dblMax := by have := dblMax_big; intro h; linarith
  let s : TwoObj := { TwoObj.fresh (OneObj.fresh "" 0) (OneObj.fresh "" 0) 0 with dist := 1, x := 0, y := 1, z := 0, gt := true }
  refine ⟨s, _, _, _, by unfold TwoObj.save OneObj.save BaseObj.save derefCache; simp only [s, TwoObj.fresh, OneObj.fresh, BaseObj.fresh, h0, Out.ok_bind]; rfl,
    by unfold TwoObj.load OneObj.load BaseObj.load derefCache; simp only [TwoObj.fresh, OneObj.fresh, BaseObj.fresh, h0, Out.ok_bind, if_true]; rfl, ?_, fun m => ⟨?_, ?_⟩⟩
  · simp [s, TwoObj.params, runPair, PairOp.run, PairParams.setVector, PairParams.fresh, TwoObj.fresh]
  · unfold initPair TwoObj.params
    simp [s, TwoObj.fresh, d1, PairParams.greenBranch, PairParams.green]
  · unfold initPair TwoObj.params
    simp [d1, PairParams.greenBranch]

/-- **C58 does not hold** for a list of one-atom basis vectors that was set before the basis is built: the loaded system combines all of them. -/
theorem C58_pairs_fails (h : Heap μ) (c : CacheObj μ) (h0 : h 0 = some c) (S1 S2 : OneSys) (P : PairSet) (s1 : 0 < S1.cols.length) (s2 : 1 < S2.cols.length) :
    ∃ (s : TwoObj) (a : TwoArch μ) (h' : Heap μ) (s' : TwoObj), s.save h = .ok a ∧
      (TwoObj.fresh (OneObj.fresh "" 0) (OneObj.fresh "" 0) 0).load h a = .ok (h', s') ∧
      PairSet.usedPairs { P with pairs := s.pairs } S1 S2 ≠ PairSet.usedPairs { P with pairs := s'.pairs } S1 S2 := by
  let s : TwoObj := { TwoObj.fresh (OneObj.fresh "" 0) (OneObj.fresh "" 0) 0 with pairs := [(0, 0)] }
  refine ⟨s, _, _, _, by unfold TwoObj.save OneObj.save BaseObj.save derefCache; simp only [s, TwoObj.fresh, OneObj.fresh, BaseObj.fresh, h0, Out.ok_bind]; rfl,
    by unfold TwoObj.load OneObj.load BaseObj.load derefCache; simp only [TwoObj.fresh, OneObj.fresh, BaseObj.fresh, h0, Out.ok_bind, if_true]; rfl, ?_⟩
  unfold PairSet.usedPairs
  simp only [s, List.cons_ne_self, if_false, if_true]
  intro he
  have hm : ((0 : ℕ), (1 : ℕ)) ∈ allPairs S1.cols.length S2.cols.length := by
    unfold allPairs
    simp only [List.mem_flatMap, List.mem_range, List.mem_map, Prod.mk.injEq]
    exact ⟨0, s1, 1, s2, rfl, rfl⟩
  rw [← he] at hm
  simp at hm

/-- **C58 does not hold** for the defect database: the loaded system computes new energies with the database of the target. -/
theorem C58_defect_database_fails (t : μ) : ∃ c target : CacheObj μ, (target.load c.save).defectdb ≠ c.defectdb ∧ (target.load c.save).tables = c.tables :=
  ⟨⟨t, .numerov, "", "my_defects.sql"⟩, .fresh t, by show "" ≠ "my_defects.sql"; decide, rfl⟩

/-- **C58 does not hold** in Python: whatever was saved, the cache of the unpickled system no longer exists when `__setstate__` returns, so
the first use of the cache is undefined behaviour. -/
theorem C58_python_fails (h : Heap μ) (empty : μ) (free : ℕ) (a : OneArch μ) :
    ∃ h' s', OneObj.setstate h empty free a = .ok (h', s') ∧ derefCache h' s'.base.cache = .ub := by
  refine ⟨_, _, by unfold OneObj.setstate OneObj.load BaseObj.load derefCache; simp only [OneObj.fresh, BaseObj.fresh, if_true, Out.ok_bind]; rfl, ?_⟩
  unfold derefCache
  simp

/-- The same for two-atom systems. -/
theorem C58_python_two_fails (h : Heap μ) (empty : μ) (free : ℕ) (a : TwoArch μ) :
    ∃ h' s', TwoObj.setstate h empty free a = .ok (h', s') ∧ derefCache h' s'.base.cache = .ub := by
  refine ⟨_, _, by
    unfold TwoObj.setstate TwoObj.load OneObj.load BaseObj.load derefCache
    simp only [TwoObj.fresh, OneObj.fresh, BaseObj.fresh, if_true, Out.ok_bind]; rfl, ?_⟩
  unfold derefCache
  simp

/-- Loading into a system that shares its cache replaces that cache for all systems that use it. -/
theorem C58_load_replaces_shared_cache (h : Heap μ) (s t : OneObj) (p : ℕ) (c ct : CacheObj μ) (hs : derefCache h s.base.cache = .ok c) (ht : t.base.cache = some p)
    (hp : h p = some ct) (a : OneArch μ) (ha : s.save h = .ok a) : ∃ h' s', t.load h a = .ok (h', s') ∧ h' p = some (ct.load c.save) ∧ ∀ k, k ≠ p → h' k = h k := by
  have e : a.base.cache = c.save := by
    unfold OneObj.save BaseObj.save at ha
    rw [hs] at ha
    simp only [Out.ok_bind] at ha
    injection ha with ha
    rw [← ha]
  refine ⟨_, _, by unfold OneObj.load BaseObj.load; rw [ht, derefCache_some hp]; rfl, ?_, fun k hk => ?_⟩
  · simp [e]
  · simp [hk]

/-- A default-constructed system (SystemOne.cpp:36-37, SystemBase.cpp:1293-1296) has no cache: loading into it is undefined behaviour. -/
theorem C58_default_constructed_fails (h : Heap μ) (t : OneObj) (ht : t.base.cache = none) (a : OneArch μ) : t.load h a = .ub := by
  unfold OneObj.load BaseObj.load
  rw [ht]
  rfl

end PI
