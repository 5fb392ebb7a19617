# Formal model of pairinteraction: design

Source modelled: `/repo/pairinteraction` (C++). Everything here is Lean 4 (4.33.0) with Mathlib, under `lean/Verif/`.
Line numbers in comments are those of the files in `/repo`.

## 1. Trusted base

* Lean's kernel and the three standard axioms `propext`, `Classical.choice`, `Quot.sound` (section 4 lists which theorem
  uses which). No axiom is added, nothing is assumed by a placeholder, nothing rests on compiled evaluation;
  `decide +kernel` (used for a few concrete witnesses) is evaluated by the kernel.
* The correspondence between the C++ text and the Lean definitions, which was made by reading. Every definition of the
  model carries a comment with the file and lines it models and says what was simplified (section 5 collects them).
* Conventions shared by all modules
  * half-integers (`j`, `m`, `s`, stored as `float`) are doubled integers (`2j : ℤ`); floats represent these numbers
    exactly, so this is not an approximation;
  * `double` arithmetic is exact real or complex arithmetic (or an arbitrary ordered field); no statement about rounding
    is made. Tolerances (1e-16, 1e-12, ...) are kept as the numbers in the code or as parameters;
  * a C++ exception is `Out.throw`, undefined behaviour is `Out.ub`, a distinct outcome that no theorem identifies with an
    ordinary one; proofs of safety show that `Out.ub` is not reached;
  * `int` and `size_t` are unbounded unless the overflow matters (it is then modelled explicitly, e.g. C33, C57);
  * Eigen, SQLite, Boost, cereal, GSL, NumPy and the library of Wigner symbols are outside the model. Where a property depends on
    them, the assumed behaviour is written down as a definition with its documented meaning (Racah's formulas for 3j and 6j symbols,
    `SparseMatrix::finalize`, property-tree paths, archive as a faithful sequence of values, rows of a query).

## 2. Layout

`lean/Verif/<Area>/Model.lean` is the model, `.../Props.lean` (or a file with a descriptive name) holds specifications and
property theorems named `Cxx_...`, with an `example` beside the theorems that a concrete, non-trivial case meets the hypotheses.
Where the code does not satisfy a property there is a theorem `Cxx_..._fails` that proves the negation from a concrete witness, and
`Cxx_..._partial` for the largest part that was proved. `seeded/LOG.jsonl` lists the wrong programs the theorems were tested against.

## 3. Properties: what is modelled, how it is proved, what came out

Status `partial` means: the theorem named `_partial` covers the part described in the last column; where the code itself violates the property, a theorem `_fails` proves the negation from a concrete reachable witness.

| id | property | modules | method | status | remark |
|----|----|----|----|----|----|
| C01 | One-atom states are totally ordered, consistently with equality | State | lexicographic order by case analysis | proved |  |
| C02 | Equal states hash equally and the hash is a function of the quantum numbers | State | congruence; artificial and physical states | proved |  |
| C03 | Wildcard matching of generalized states | State | case analysis | proved |  |
| C04 | Reflection of a state | State | case analysis | proved |  |
| C05 | Artificial and physical states never leak undefined quantum numbers | State | case analysis | proved |  |
| C06 | Pair states: projections and order | State | orders lifted from the components | proved |  |
| C07 | Legacy pair ordering is canonical | State | orders lifted from the components | proved |  |
| C08 | Write-once cache | Defect | invariant over operation lists against an abstract map | proved |  |
| C09 | Quantum defect objects do not depend on what was constructed before | Defect | invariant "every cached value is the fresh value" over histories; witness | partial | Proved for all histories when each database file is self-contained (in particular for all files of the shipped shape); disproved in general: a mistyped file name silently uses the tables of the previously loaded file. |
| C10 | Concurrent construction of quantum defect objects | Defect | invariant of a small-step interleaving semantics; witness schedules | partial | Values proved correct under every schedule when one database name is used; disproved in general: two threads missing the same key -> 'Cache smashing' throw; two database names -> wrong value. Data races on used_db_name / clear() are modelled as atomic steps. |
| C11 | Rydberg-Ritz energies | Defect | algebra in an ordered field | proved | exact arithmetic in an ordered field instead of double |
| C12 | SQLite statement protocol | Sqlite | automaton over the result rows, induction; characterisation | proved | SQLite itself is a parameter (a query denotes a list of rows); SQLITE_BUSY is not modelled |
| C13 | Iterating over an SQLite result visits every row once | Sqlite | automaton over the result rows, induction; characterisation | partial | The code violates the property: the loop is right if and only if the result has exactly two rows (operator++ has its flag inverted). |
| C14 | Saving and loading a configuration preserves it | Conf | induction over the keys; exact characterisation | partial | Exact characterisation: round trip iff all keys are non-empty and dot-free; disproved for dotted keys. Boost property tree modelled from its documentation. |
| C15 | Merging configurations | Conf | induction over the keys; exact characterisation | proved |  |
| C16 | Angular matrix elements do not depend on the order in which they are looked up | Element, Wigner/Symbols | Racah sums over ℝ, reindexing; angular factors against an independent specification | proved | Wigner 3j as a real number by Racah's formula; double rounding not modelled |
| C17 | Commuting-spin reduced elements do not depend on lookup order | Element, Wigner/Symbols | Racah sums over ℝ, reindexing; angular factors against an independent specification | partial | Proved for spin-commuting elements and for orbital-commuting ones with equal l. The code violates the remaining case (l1 != l2): it stores a non-zero value where the operator has none. |
| C18 | Reduced multipole elements do not depend on lookup order | Element, Wigner/Symbols | Racah sums over ℝ, reindexing; angular factors against an independent specification | proved |  |
| C19 | Radial keys are symmetric and faithful | Element | case analysis | proved |  |
| C20 | Selection rules are sound | Element, Wigner/Symbols | Racah sums over ℝ, reindexing; angular factors against an independent specification | proved |  |
| C21 | Electric multipole elements form a Hermitian tensor operator | Element, Wigner/Symbols | Racah sums over ℝ, reindexing; angular factors against an independent specification | proved | radial integrals are an arbitrary function of the radial key (symmetric by C19) |
| C22 | Matrix element lookups do not depend on history | ElemCache | state machine with cache, missing set and database rows; invariants over histories, interleavings and crash points | partial | Proved for all histories in which the method is not changed while elements wait and the defect database is not changed once radial values are cached; the code violates the property for the others. Histories that load dipole elements are in C92. |
| C23 | The matrix element database survives crashes and concurrent processes | ElemCache | state machine with cache, missing set and database rows; invariants over histories, interleavings and crash points | partial | All interleavings and crash points at row granularity. Excluded: method changed while elements wait (violated), and page-level damage that journal_mode=MEMORY permits (SQLite not modelled below rows). |
| C24 | A failed lookup does not break later lookups | ElemCache | state machine with cache, missing set and database rows; invariants over histories, interleavings and crash points | partial | The code violates the property: after a throwing computation every later lookup throws (proved for all histories). Only rejected species mismatches are harmless. |
| C25 | A range restriction keeps exactly the requested interval | SysOne | membership characterisation of the enumeration loops | partial | The code violates the property: an interval with upper < lower bound restricts nothing, and j or m bounds of the wrong class (integer bounds for half-integer momenta) remove states inside the interval. Proved for all other intervals (no reflection symmetry, no user-defined states). |
| C26 | The one-atom basis is exactly the set of allowed states | SysOne | membership characterisation of the enumeration loops | partial | The code violates the property: with a user range for j the check is /j-l/ <= s, which admits unphysical j (3S0). Proved for all ranges that fit the species. |
| C27 | Energy windows | SysOne | membership characterisation of the enumeration loops | proved | for the build of the basis without reflection symmetry; energies are an arbitrary function |
| C28 | Conserved momentum restriction | SysOne | membership characterisation of the enumeration loops | proved | for the build of the basis without reflection symmetry |
| C29 | Reflection-symmetrized one-atom basis vectors | SysOne/Refl | vectors as finitely supported functions, algebra over ℂ | partial | The code violates the property for integer j (singlet/triplet species): m = 0 states are in both bases and the other vectors are not reflection eigenvectors. Proved for half-integer j, complex scalars. |
| C30 | Removing states keeps indices and coefficients consistent | Sys | list and matrix lemmas over the model of the loops | proved |  |
| C31 | Connections between two systems are a partial bijection | Sys | list and matrix lemmas over the model of the loops | proved |  |
| C32 | Basis vector lookup is an injective assignment | Sys | list and matrix lemmas over the model of the loops | partial | The code violates the property: for a state that no vector contains the single lookup returns size_t(-1), and a list longer than the number of basis vectors reads past the end. Proved otherwise. |
| C33 | Constraining basis vectors rejects bad indices | Sys | list and matrix lemmas over the model of the loops | partial | The code violates the property: an index >= 2^63 passes the signed comparison. Proved for all smaller indices. |
| C34 | Hamiltonian entries read back what was written | Sys/HamModel, Sys/Ham | linear algebra over ℂ | partial | The code violates the property for complex scalars: getHamiltonianEntry returns the complex conjugate (Eigen's dot conjugates its first argument), so set and get do not agree. Proved for the real scalar type. For an incomplete basis a value cannot be written. |
| C35 | The Hamiltonian depends only on the current parameters | Sys/Param, Field, Pair/Settings | flag state machine, invariant over all histories, instantiated for both systems | partial | Proved for all histories of setters, builds and diagonalizations (any derived class). The code violates the property for buildInteraction after diagonalize and a parameter change, for rotate and constrainBasisvectors after diagonalize, and for unitarize of a system without interaction. |
| C36 | Basis changes preserve the represented operator | Sys/HamModel, Sys/Ham | linear algebra over ℂ | proved | threshold 0; the eigensolver is any unitary matrix that diagonalizes H; hash collisions of unitarize not modelled |
| C37 | The atom-in-field Hamiltonian is Hermitian | Field | loops as finite sums of tensor operators; algebra over ℂ | proved | Also shown: the operator is H0 - E.d - B.mu + diamagnetic + ion terms built from the full tensor operators (selection rules lose nothing). Exact arithmetic. |
| C38 | The diamagnetic terms add up to (B x r)^2 | Field | loops as finite sums of tensor operators; algebra over ℂ | proved |  |
| C39 | Spherical field components | Field | loops as finite sums of tensor operators; algebra over ℂ | proved | exact arithmetic |
| C40 | A rejected field leaves the system unchanged | Field | loops as finite sums of tensor operators; algebra over ℂ | partial | The components used by the Hamiltonian stay those of the last accepted field, but the code stores the rejected Cartesian field, which add() later compares, and marks the Hamiltonian for rebuilding. |
| C41 | Permutation-symmetrized pair basis | Pair/BasisModel, Basis, BasisComplete, BasisSafe | induction over the nested loops; membership, orthonormality, completeness | proved | For complete one-atom bases. Machine-checked failures outside that range: different systems for the two atoms (not checked by the code), and incomplete one-atom bases, whose pair vectors lose components when rarely occurring states are removed. |
| C42 | Pair interaction operators read are always initialised | Pair/Model, Props, Multi | operator sums over spherical components; algebra | proved | the accepted settings are characterised as well |
| C43 | The dipole-dipole angular terms | Pair/Model, Props, Multi | operator sums over spherical components; algebra | proved | Also: in all three branches the complete operator (both triangles) is k(d1.d2-3(d1.n)(d2.n))/R^3, if no factor lies in (0, 1e-16]. |
| C44 | The pair multipole Hamiltonian is Hermitian and conserves the total momentum | Pair/Model, Props, Multi | operator sums over spherical components; algebra | proved | Hermitian for all settings, not only along z. |
| C45 | Vacuum Green tensor | Green | derivatives (HasDerivAt) of the point-dipole tensor; state machine | proved | real arithmetic; dipole-quadrupole and quadrupole-dipole tensors are proved to be the derivatives of the dipole-dipole tensor and traceless/symmetric as stated |
| C46 | Surface Green tensor | Green | derivatives (HasDerivAt) of the point-dipole tensor; state machine | partial | Proved: the dipole-dipole image tensor and its in-plane gradients. The code violates the rest: the gradient along y is missing and an atom inside the plate can be accepted. |
| C47 | Green tensor getters do not depend on call history | Green | derivatives (HasDerivAt) of the point-dipole tensor; state machine | partial | Proved for all histories in which no rejected addSurface has modified the heights; a rejected call changes the results of later getters (disproof). |
| C48 | C6 sums over every dipole-coupled intermediate state | Pert | membership characterisation of the intermediate states; sums | partial | Proved for spins 0 and 1/2. The code violates the property for triplet states (3D2 is missed from 3P1), visits impossible states (l >= n) for large deltaN and n outside a fractional deltaN. |
| C49 | The effective C6 matrix sums over every dipole-coupled intermediate state | Pert | membership characterisation of the intermediate states; sums | partial | Proved for states with equal l and spins 0, 1/2. The code violates the property for states whose l differ by two (S-D coupling through P is never visited) and for triplet states. |
| C50 | Perturbative matrices are symmetric | Pert | membership characterisation of the intermediate states; sums | proved | Symmetry for all lists; with dipole elements of a Hermitian operator both triangles of C3 are the interaction elements. |
| C51 | Grid search | Wave | loop invariant of the bisection; induction over the grid | proved | exact real arithmetic; the loop ends for every positive tolerance and diverges for tolerance zero |
| C52 | Radial wave functions are normalised and radial integrals symmetric | Wave | loop invariant of the bisection; induction over the grid | proved | exact real arithmetic; the GSL Whittaker function is a parameter; the recurrence is stated where its leading coefficient is non-zero |
| C53 | Binary matrix files round-trip | Matfile | byte-level writer and reader, induction over items, prefix argument for crashes | proved |  |
| C54 | A truncated matrix file is never taken for a valid one | Matfile | byte-level writer and reader, induction over items, prefix argument for crashes | proved | one writer at a time |
| C55 | Legacy one-atom basis is exactly the requested neighbourhood | Legacy/Basisnames | membership characterisation, induction | partial | The code violates the property for a start state with negative m and an unrestricted m (negative delta): the substituted delta is too small. Proved otherwise, for one and two start states. |
| C56 | Legacy pair basis indexing | Legacy/Basisnames | membership characterisation, induction | partial | Everything proved except that the recorded index of the initial state names another state after the initial state itself was removed (fails-theorem). |
| C57 | Numpy conversion never exposes foreign memory | Numpy | model of the conversions on dtype/flags/strides, case analysis | partial | The overloads for vectors and matrices are proved for less than 2^31 elements. The code violates the property for views with explicit dimensions: the comparison of the size check is inverted, so dimensions larger than the buffer are accepted. |
| C58 | Serializing a system preserves everything that influences later results | Serialize | archive as a value list per field; round trip | partial | The code violates the property: ion settings, the Green tensor flag, the list of one-atom basis vectors and the defect database are not written, and in Python the cache of an unpickled system is destroyed. Proved: everything else survives (complete equality of the loaded system). |
| C59 | Symmetries are totally ordered | State | case analysis | proved |  |
| C60 | Sparse matrix archive round-trip | Matfile | byte-level writer and reader, induction over items, prefix argument for crashes | proved | the Boost archive is a faithful sequence of values |
| C61 | Wigner d-matrix | Rot/Rep, WignerD, Props | identification of the loops with symmetric powers of 2x2 matrices (polynomial method) | proved | For j <= 85 (above, the factorial of the boost library throws an overflow error). Exact arithmetic. |
| C62 | Distance and angle settings | Pair/Settings | invariants over setter histories | partial | Vector part proved for all histories without a zero distance (after one the vector is NaN). Le Roy check proved if the estimate orders the states like their precise radii; it fails otherwise, and after add(), which keeps the stored radius. |
| C63 | Magnetic dipole elements are Hermitian and conserve l | Element, Wigner/Symbols | Racah sums over ℝ, reindexing; angular factors against an independent specification | partial | Hermitian for equal l; the code violates the vanishing for different l. |
| C64 | A matrix loaded from a cache file equals the one saved | Matfile | byte-level writer and reader, induction over items, prefix argument for crashes | partial | The code violates the property: the final column pointer is not saved, so a matrix whose entries are all in its last column (e.g. every one-column matrix) loads as empty. Proved for all other matrices. |
| C65 | A cached matrix is only used for the parameters it was computed with | Matfile | byte-level writer and reader, induction over items, prefix argument for crashes | partial | The code violates the property: keys are printed with six significant digits. Proved for parameter values that survive printing. |
| C66 | Restrictions imposed on a built system | Sys/Update, Sys/Add | list and matrix lemmas | proved | unmixed systems (coefficient matrix is the identity) |
| C67 | Combining two systems is a direct sum | Sys/Update, Sys/Add | list and matrix lemmas | partial | Direct sum proved in full for the matrices and caches (settings and flag checks: C94). The code violates the last sentence: a refused call leaves the object broken. |
| C68 | Overlaps are sums of squared coefficients | Sys/Update, Sys/Add | list and matrix lemmas | partial | The code violates the property if a state is requested twice (plain and by wildcard): it is counted twice. Proved for all other requests (no rotation). |
| C69 | The main state of a basis vector has its largest coefficient | Sys/Update, Sys/Add | list and matrix lemmas | partial | The code violates the property for a column without stored entries (uninitialised row). Proved otherwise. |
| C70 | One-atom interaction operators read are always initialised | Field | loops as finite sums of tensor operators; algebra over ℂ | proved |  |
| C71 | Green tensor and multipole expansion give the same pair interaction | Pair/Model, Props, Multi | operator sums over spherical components; algebra | partial | The code violates the property: for atoms along -z the multipole operators use 1/R^4 and give the dipole-quadrupole energy with the wrong sign. Proved: the Green tensor operator is the dipole-dipole plus dipole-quadrupole energy for every vector, and both agree along +z. Orders above 4 have no Green tensor. |
| C72 | The pair interaction does not depend on how the settings were reached | Pair/Settings | invariants over setter histories | partial | The code violates the property: a vector with a y component enables the Green tensor for good. Proved for histories without explicit enableGreenTensor that never set a y component or surface, or end with one. |
| C73 | Building the pair basis is memory safe | Pair/BasisModel, Basis, BasisComplete, BasisSafe | induction over the nested loops; membership, orthonormality, completeness | partial | Proved under explicit conditions on the systems (PairSafe); the code checks none of them, and each of the three fails-theorems shows undefined behaviour without one. |
| C74 | Inversion, reflection and rotation symmetric pair bases | Pair/BasisModel, Basis, BasisComplete, BasisSafe | induction over the nested loops; membership, orthonormality, completeness | partial | Quantum numbers proved for all systems; orthonormality and completeness for inversion and for conserved momenta. With reflection the vectors are projections that are neither normalised nor independent (C74_reflection_basis_fails) unless the one-atom vectors are symmetric already, when they are orthonormal and complete (C74_reflection_basis_partial, half-integer momenta). |
| C75 | Angular factors of the perturbative interaction | Pert | membership characterisation of the intermediate states; sums | proved | exact arithmetic |
| C76 | C6 does not depend on the numbering of the atoms | Pert | membership characterisation of the intermediate states; sums | proved | mirror: for energies independent of m and dipole elements whose squares are, which the model of the matrix elements has |
| C77 | Matrices survive the conversion to numpy and back | Numpy | model of the conversions on dtype/flags/strides, case analysis | partial | Proved for dense matrices and vectors and for sparse matrices with stored entries and 32 bit indices. The code violates it for sparse matrices without stored entries (throws), 64 bit indices (reinterpreted) and arrays without dimensions. |
| C78 | Rotating states is a unitary transformation | Rot/StateModel, State, PairState, StateMore | element loops identified with symmetric powers of SU(2) matrices | partial | Proved for one- and two-atom states with j <= 85 and complete Zeeman levels. For a basis that does not contain all m of a level the components outside of the basis are silently dropped (C78_incomplete_fails). |
| C79 | Rotated fields are rotations of the field vector | Rot/Vector | orthogonality of the 3x3 matrices, trigonometric identities | partial | Proved except that a vanishing axis is accepted and the field is lost (C79_zero_axis_fails). |
| C80 | Rotating the system equals rotating the fields | Rot/Covariance, FieldCov | Wigner-Eckart form of every operator of SystemOne, invariance of 3j symbols, double cover SU(2) -> SO(3) | proved | For complete Zeeman levels with j <= 85, field components that are zero or above the tolerance, angles beta outside of the 1e-16 window around -pi/2 in which the code uses the table for exactly pi/2; exact arithmetic. With an ion along z only rotations about z are a symmetry. |
| C81 | The pair interaction rotates with the interatomic axis | Rot/PairCov, PairThm | Wigner-Eckart form of dipole and quadrupole elements of both atoms, contraction with rotated Cartesian tensors | partial | Dipole-dipole (order 3, all three ways to calculate it) and dipole-quadrupole (order 4, Green tensor) for all distance vectors and angles; every order for rotations about the interatomic axis. Complete Zeeman levels with j <= 85, factors that are zero or above the tolerance. Missing: the code has no formula for orders above 4 off the axis, and for atoms along -z with order 4 the multipole expansion violates the property (C71). |
| C82 | Effective Hamiltonian of a Schrieffer-Wolff transformation | Sys/EffModel, Eff, EffThm | existence and uniqueness of the principal root of a unitary matrix, direct rotation between two subspaces, similarity to the chosen eigenvalues | partial | Proved if no combination of the chosen eigenvectors is orthogonal to the unperturbed basis (always so for one unperturbed state), for a square root that finds the principal root. The code violates the property otherwise: the largest overlaps can belong to the wrong space, and the call then succeeds with a Hamiltonian whose entries are no energies; more unperturbed basis vectors than eigenvectors are undefined behaviour. |
| C83 | Forgetting the state mixing | Sys/EffModel, EffThm | Bessel inequality for rows and columns | proved | For orthonormal eigenvectors; the code does not check this, and without it two vectors can become the same state (fails-theorem). |
| C84 | The legacy program uses the same matrix elements |  |  | proved | For spin 1/2 (the legacy program has no other), exact arithmetic and a database with exact rows; what printed rows do is C85. The overload for vectors of states, which nothing calls, is not modelled. |
| C85 | Matrix elements of the legacy program do not depend on the database left behind | Legacy/ElemModel, Elem | invariant of cache and database over all call sequences; agreement of every cached factor with the specification of the angular factors; relative error of printing | partial | The code violates it: rows are printed with six digits and read back (C85_reload_fails; C85_history_partial bounds the deviation of each electric element by 2.1e-5 of its size for every history), and a run throws if another one inserts the same row first. |
| C86 | One-atom Hamiltonians of the legacy program | Legacy/HamOneModel, HamOne | entry by entry: the chain of alternatives against the tensor components, selection rules imply zero elements, the mirrored lower triangle is Hermitian | partial | Proved without diamagnetism. With it the code violates the property: an element is put into one matrix only, so the quadrupole part between states with equal l, j and m is lost (C86_hamiltonian says exactly what is built, C86_diamagnetism_fails is a witness). For elements that are zero or above 1e-32, exact rows in the database of elements, exact arithmetic. |
| C87 | Interaction of two atoms in the legacy program | Legacy/TwoModel, Two | the elements of C84/C85, relative errors multiplied term by term, the sum over ranks against the library operator of C44 on the axis | partial | Proved: the operator of the library up to the tolerance 1e-32 per order in a first run of two species, up to 4.3e-5 of the size of the terms after any history; the structure always. The code violates the rest: for equal species the second object reads the six-digit rows that the first one just printed, so the interaction does not commute with the exchange (C87_exchange_fails). Exact arithmetic. |
| C88 | Pair Hamiltonian of two atoms in the legacy program | Legacy/CombineModel, BlockLemma, Combine, Blocks | the triplets of combine summed per row give the product vectors, orthonormality makes the pruning vacuous, the mask covers the supports, charpoly under a unitary change of basis | proved | The matrix handed to the eigensolver; the eigensolver itself is not modelled. Exact arithmetic; the loop over the steps that marks necessary states is taken as sequential. |
| C89 | Symmetry blocks of equal atoms in the legacy program | Legacy/Exchange, Spectrum, Herm | the interaction under exchange of the atoms, charpoly of a matrix that commutes with a signed swap of pairs splits, induction over the precalculated ranks | proved | Without reflection. In the very first run for a pair basis the two objects hold different (exact and printed) elements and the statement is violated (PI.C87_exchange_fails). Exact arithmetic; the eigensolver is not modelled. |
| C90 | Leaving out blocks without the initial state in the legacy program | Legacy/Sector | every pair of stored entries adds triplets whose overlap with the initial state cancels or vanishes by support | proved | Without reflection. A rotated initial state is any vector of the spaces of n, l, j, the same for both atoms if their states are the same. Exact arithmetic. |
| C91 | Reflection blocks of the legacy pair calculation | Legacy/Reflect* | the reflection acts on the products of eigenvectors as an involution that commutes with the pair matrix and pairs positive with negative momenta; a block is one half of its even or odd part; witnesses on 16 rows | partial | Proved for the reflection with or without conservation of the momentum, for bases closed under m to -m. The full claim is false of the code: with inversion the blocks of non-zero momentum hold vectors twice, with permutation in a field along z vectors are not normalised, and for a basis without the reversed state a row outside of the matrix is written. Exact arithmetic. |
| C92 | Loaded dipole elements are the ones used | ElemCache/Dipole* | invariants of update for arbitrary predicates on rows: the angular tables stay right and cached values are kept in every history, whatever the radial tables hold | partial | Proved for rows that name the lower level first or have an even difference of the total momenta. The full claim is false of the code: rows that name the higher level first, as 18 of the 71 of testsuite/dipole.csv do, give elements of the opposite sign if j differs by an odd number, because the angular factors are those of the exchanged levels; rows of forbidden transitions are divided by zero. Number syntax and tokenizing are not modelled. Exact arithmetic. |
| C93 | The parallel loops of the legacy program do not depend on the schedule | Legacy/Threads* | inductive invariant over all interleavings and crash points; ranking function for progress | partial | Proved for configurations that differ within a run, for matrices that the file format stores faithfully (C64), for names that never repeat, and for the one-atom program if the table exists. The full claim is false of the code: the one-atom program clears the shared flag before the table is created, so that on a new database another thread can select from a missing table; two steps with the same printed configuration can both insert it and violate the UNIQUE constraint. Unsynchronised accesses to the flag and to the random generator, undefined in C++, are taken as atomic. |
| C94 | The Hamiltonian of a combined system | Sys/Combine* | the invariant of C35 for both histories gives the invariant of the combined system; iff characterisation of the coupled case | partial | Proved if the Hamiltonians were not built before, or a setter is called afterwards, or the interaction does not couple the bases. The full claim is false of the code: the coupling between two bases whose Hamiltonians were built before is left out until a setter is called; the settings of the ion (one atom), of the Green tensor and of the surface (two atoms) are not compared. |
| C95 | The command line program does what its options and configuration say | Legacy/Main* | induction over the arguments; case analysis of the configuration | proved | option parser, dispatch and pointers; reading the file is a parameter |
| C96 | Steps of a scan | Legacy/Steps* | explicit form of the loops by induction; field arithmetic over the reals | partial | Proved for at least one step. Missing: zero steps with changing fields read the last element of an empty vector. |
| C97 | Restricting the one-atom states of a pair calculation | Legacy/Restrict* | loop over the mask by induction; zero columns do not contribute to a block; eigenvectors of the restricted Hamiltonian | partial | The states are proved for separate atoms. The full claim is false of the code: with a common basis a state stays if each quantum number is near the one of some initial state; and if fields mix kept and removed states the block can have more vectors than pair states. Proved: without such mixing every block is the one of the restricted Hamiltonians. |
| C98 | Failed and repeated calls on a one-atom system | SysOne/Life* | invariant of histories: no basis, complete basis or inconsistent; induction over histories | partial | Proved for all histories: last setting counts, successful getters, the three kinds of objects; retry after failed getters without symmetries and user-defined states. The full claim is false of the code: a getter that finds no states forgets the restrictions, a conserved parity with real scalars and a state added to a built basis make all later getters throw, and a refused symmetry is stored. Failing energy lookups are not modelled. |
| C99 | Diagonalization in an energy window | Sys/Window* | sparse arrays by induction; counting version of the circle theorem for Hermitian matrices (dimension argument, Cauchy-Schwarz) | partial | Proved for Hamiltonians that are not diagonal and successful calls, for any FEAST that keeps its documented promise. The full claim is false of the code: a diagonal Hamiltonian is left with energies outside of the window, the reserved space is too small for states with several couplings (the largest coupling is used instead of the sum, for which it is proved), and after a failure every use of the Hamiltonian reads beyond its arrays. |
| C100 | The pair basis consists of the chosen products of one-atom basis vectors | Pair/Select* | induction over the loop of pairs; histories by induction; the numbering composes with C66 | partial | Products, complete basis, the check of the selection and histories up to the first getter are proved in full. The full claim is false of the code: the numbers of a selection count the vectors left after the ranges of the pair system were applied, a selection after the first getter is ignored, an energy window without pairs is forgotten, with exchange symmetry only pairs with decreasing numbers are used, and a selection of strongly mixed vectors makes all getters throw. |
| C101 | Unitarizing replaces each basis vector by one artificial state | Sys/Label* | induction over the loop of labels; injectivity of the hexadecimal digits; pigeonhole for the collision | partial | The successful call is characterised in full. The rest is false of the code: the label has 64 bits, so different vectors share labels for every hash function; a collision inside of a system throws and leaves new states with old basis vectors; stored zeros and the order of the states change the label of the same vector. |
| C102 | The key of a stored matrix determines the matrix | Legacy/Key* | the entries of the key determine what the run is computed from (injective printing); congruence of the construction | partial | One-atom matrices in full (for values that are printed differently; else C65). Pair matrices without reflection blocks and with symmetric blocks of a common basis only. The full claim is false of the code: sametrafo is not in the key, C102_sametrafo_fails. |
| C103 | Looking up states by quantum numbers and by index | Sys/Lookup* | the bimap of states numbers the rows 0..n-1 (invariant WF); then by induction over the query list | partial | Proved for all well-formed systems (and every one-atom system reached by calls). The full claim is false of the code: addStates accepts a state with a wildcard quantum number, which getStates then lists but getStateIndex refuses (C103_wildcard_fails), a pair query with a wildcard in one atom only finds nothing (C103_half_wildcard_fails), and getOverlap does not check its indices (C103_overlap_index_fails). |
| C104 | The conserved quantities of a pair system | Pair/Sym* | induction over the history; then the theorems on the basis (C41, C74) for the settings reached | partial | Proved for all histories without an exception. The full claim is false of the code: the setters of the reflection parity and of the momenta store the refused value before they throw, and a later getter uses it (C104_refused_fails). |
| C105 | Precalculation is enough | ElemCache/Precalc* | the keys of a pair are wanted by precalculate, present after update (C22 invariants), and the constructors of the keys are symmetric in row and column | partial | Proved for bases of one species; for a single polarisation q only pairs in the order of the basis. The full claim is false of the code: with a given q the pairs with the row behind the column are skipped (C105_order_fails), and the species of the first state is used for all (C105_two_species_fails). |
| C106 | User-defined states of a pair system | Pair/User* | each test of the loop is equivalent to its specification; keys of the new columns are distinct and new, so that removing small vectors and states splits into the two parts | partial | Proved whenever the basis can be built without the added states. The full claim is false of the code in two cases: added states ignore the reflection symmetry (C106_reflection_fails; a warning is printed), and a state that is not in the basis because its weight is below the threshold is refused as already contained (C106_removed_state_fails). |
| C107 | What is saved is the current matrix | Matfile/Obj* | invariant over histories: the cached bytes of an object that is not marked as failed decode to its matrix | partial | Proved for all histories that keep three rules (and matrices the format can hold, see C64). The full claim is false of the code: after a failed load the unreadable bytes are saved instead of the matrix (C107_failed_load_fails), compress (C107_compress_fails) and a write through a reference obtained earlier (C107_reference_fails) do not invalidate the cached bytes. The program itself keeps the rules (C107_recomputed). |
| C108 | Rotations given by two axes | Rot/Axes* | Euler angles recomposed entry by entry from orthogonality and the adjugate; then C80, C81 and C78 with these angles | proved | Real arithmetic; Eigen's eulerAngles is written down from the library. Hypotheses: axes orthogonal and non-zero, the z component of the z axis zero or above 1e-16 of its length (otherwise the code replaces beta), pair interaction in dipole order (as C81), no ion. Two cases violate the claim: a zero axis is accepted and rotates nothing (C108_zero_axis_fails); the real type refuses axes in the half plane x < 0 although it accepts the same rotation given by angles (C108_real_half_plane_fails). |
| C109 | Symmetry sectors of a pair system | Pair/Sector* | the sector bases span the (anti)symmetric vectors (C41, C74), a Hamiltonian that commutes with the exchange is block diagonal there; converse by comparing traces of squares | partial | Eigenvalues with multiplicities are compared by characteristic polynomials. Proved for permutation with the dipole-dipole interaction (any distance vector, all three ways of calculation, any fields) and for inversion with any order along z or dipole-dipole in any direction. Along z the permutation sectors are right exactly if the interactions of even order in 1/R vanish between the pair states (C109_permutation_orders); the code accepts order 4 with permutation symmetry, and then the sectors have other eigenvalues (C109_permutation_order_fails). Conserved momenta: for atoms along z with any order and one or two species the systems of all total momenta together have the eigenvalues (C109_momentum); with dipole-dipole in another direction exactly if nothing couples the momenta (C109_momentum_direction), which the code does not check (C109_momentum_tilted_fails). Reflection: for half-integer momenta and one-atom vectors that are symmetric or antisymmetric, the two parities together have the eigenvalues along z with any order and in the xz-plane with dipole-dipole (C109_reflection); with dipole-dipole in another direction exactly if the energies are those of the mirrored position (C109_reflection_direction), which the code does not check (C109_reflection_plane_fails). With the dipole-quadrupole interaction of the Green tensor (order 4, any distance vector) the inversion sectors are right, the permutation sectors exactly if that interaction vanishes, the reflection sectors in the xz-plane and otherwise exactly if the interaction is the mirrored one (C109_*_quadrupole). |
| C110 | The tabulated radial functions solve the radial Schrödinger equation | Wave/Schroedinger, NumerovError, WhittakerModel, WhittakerThm, SchroedingerThm, Hydrogen | Change of variables by differentiation; Taylor bounds by induction with the mean value inequality; a second-order discrete Gronwall inequality; limits of the potential; Whittaker from Kummer; the Gamma integral. | proved | Over the reals. The error bounds hold relative to any exact solution and contain the error of the two starting values (0 and ±1e-10 before normalisation); that some solution matches them is not claimed. The GSL function U is a parameter that satisfies Kummer's equation (C110_whittaker) or is 1 for a = 0 (C110_whittaker_normalised). r V(r) at the nucleus for l ≥ 4, where the code has no spin-orbit term. |
| C111 | Symmetries of the spectrum | Rot/SpecSym, Rot/Kramers, Rot/PairSpecSym | term-by-term conjugation of the Hamiltonian with parity, complex conjugation and time reversal; spectral theorem and determinants of antisymmetric blocks for the degeneracy | proved | The operators of the code are conjugated with the parity matrix, complex conjugation and the time reversal matrix term by term; no assumption on small field components is needed, since the code's threshold respects the symmetries. Kramers: an antisymmetric unitary matrix intertwines the Hamiltonian with its transpose. C111_systems states it for the Hamiltonians built after any two histories. The pair theorems assume settings without factors between zero and the tolerance, as in C81. |
| C112 | Printed states identify the state | State/PrintModel, State/Print | injectivity of decimal strings, then splitting the string at the last =, _ and blanks | partial | Proved by parsing the string from its end. The claim is partial because the code violates it in corner cases, which are proved as _fails theorems: getReflected of a state with m = 0 gives -0.0, which compares equal but prints 'mj=-0'; the label of an artificial state can imitate a physical state; names that contain '/' make pair strings ambiguous; a negative l reads outside of the letter table. Numbers of 100000 and more are rounded by the stream (parameter big). |
| C113 | A busy database is waited for, by a handler that outlives every move of the handle | Sqlite/BusyModel, Sqlite/Busy | induction on the remaining attempts; invariant over histories of handle operations | proved | The use of the handler by SQLite is taken from its documentation. Histories: moves only from handles that still own a connection (moving from a moved-from handle passes a null connection to SQLite, C113_moved_from_fails). No fairness is claimed: C113_starvation_fails gives a lock that is free every millisecond but missed by all attempts. sqlite3_close is assumed to succeed. |
| C114 | Levels when the basis is enlarged | Sys/LevelCount, Rot/Levels | dimension count: the eigenvectors below E of the small system cannot be orthogonal to fewer eigenvectors of the large one; the built Hamiltonian is the compression of one operator between the states | proved | Exact arithmetic; the eigensolver is represented by its specification (unitary eigenvectors, A U = U d). For SystemTwo the pair states of the smaller system must come in the same order as in the larger one, because only the lower triangle of each pair operator is computed. The pruning of small matrix elements and basis vectors is not part of this model (C30, C36). |
| C115 | Levels move no faster than the settings | Rot/Weyl | Weyl inequality by the dimension count of C114; difference of the factors key by key | proved | Bounds of operators: any number b with /<x/A/x>/ <= b /x/^2, e.g. the sum of the absolute values of the entries (bounded_entries). C115_pair_settings holds for all accepted geometries, with the factors that the code adds; C115_distance evaluates it for atoms on the z axis. |
| C116 | Line strengths do not depend on sublevel or polarization | Rot/ThreeJNorm, Rot/SumRule | ladder relation from the generating function; the sum of squares does not change along the ladder; negative binomial convolution at the maximal projection | proved | The symbols are those of the Racah formula that the wignerSymbols library implements (exact arithmetic). The sum rule is derived from the formula (generating function, ladder relation, closed form at the maximal projection), not assumed. For the magnetic dipole S is stated to exist. |
| C117 | The magnetic moment of a level is that of the Landé factor | Element/Lande | closed forms of the 3j and 6j symbols with a unit momentum from the Racah sums; C37 for the Hamiltonian | proved | Exact arithmetic, symbols by the Racah formula. The radial overlap <nlj/nlj> stays as a factor; that it is close to one is a matter of the Numerov or Whittaker integration (C110). C117_zeeman assumes that no field component lies in (0, 1e-24]. |
| C118 | Electric operators act on the position only, the magnetic moment is that of orbit and spin | Rot/Recouple + Rot/RecoupleEnd + Rot/SixJSum + Rot/SixJGen + Rot/Decouple | the contraction of three 3j symbols obeys the ladder relations of the 3j symbol of the outer momenta, so it is a multiple of it (C108); the factor, a 6j symbol for all momenta, from the end points by binomial identities | proved | Exact arithmetic, symbols by the Racah formula. All spins (singlets, alkali atoms, triplets). The radial integral stays as a factor. |
| C119 | Complete fine-structure multiplets: nothing is lost or counted twice | Rot/Multiplet | orthonormal rows from the recoupling identity with a scalar operator, completeness by counting (a square matrix with a right inverse); the elements by C118 in the product states | proved | Exact arithmetic, symbols by the Racah formula. The radial integral stays as a factor and is assumed equal for the members of the multiplet. |
| C120 | Centre of gravity of the levels | Rot/Trace | trace of the compressed Hamiltonian; orthogonality of the 3j symbols to the scalar one summed over Zeeman levels; parity of the dipole elements | proved | Sums of the energies after any history. The diamagnetic factor is dropped by the code when /B^2/ is at most 1e-24 (cut). The eigenvectors and energies are those of any unitary diagonalization. |
| C121 | An interaction without first-order shift spreads the levels | Rot/Spread | doubly stochastic weights |Y c i|^2 and a rearrangement inequality for sorted energies; trace of the squared Hamiltonian | proved | Exact arithmetic. The field along z is assumed above the tolerance 1e-24 of the code; the F/R^6 law is for order 3 along +z without Green tensor. |
| C122 | The C6 coefficient is the van der Waals shift of the pair level | Rot/VanDerWaals | residual bound for approximate eigenvectors (first-order corrected state), Weyl bound for the gap of the sorted levels, rearrangement of the nested sums of getC6 into the sum over the basis | proved | Exact arithmetic. Atoms on the z axis (theta = 0 in getC6), order 3, spins 0/1/2 as the symbols support, deltaN an integer at most n - l of both states. C122_c6 is for a pair level without degenerate partners in the basis; C122_two_atoms covers degenerate levels through eigenvectors of the effective operator. The code divides by a vanishing energy difference of a virtual pair state (infinite or NaN); in the model such terms are 0, and hypothesis hn of C122_c6 excludes them when the state is in the basis. The quadratic shift in a field (C122_stark) is along z, with the field above the tolerance 1e-24 of the code. |
| C123 | The eigenvalues of the C6 matrix are the van der Waals shifts of a degenerate level | Rot/VanDerWaalsMatrix | corrected states are orthonormal within the level; Hall marriage theorem and a dimension count give distinct eigenvalues near the second-order energies; Weyl bound and sorting; virtual states of the matrix version characterised and each visited once | proved | Exact arithmetic. Atoms on the z axis (theta = 0 in getC6), order 3, spins 0 and 1/2, deltaN an integer at most n - l. The states of the level have for each atom the same species, spin, n and l (j and m differ); for orbital quantum numbers that differ by two the code visits wrong virtual states (C49_delta_l_two_fails), so the claim would be false there. The basis contains all virtual states of the sums (C6Basis). |
| C124 | The C6 coefficients for an angle are the van der Waals shifts of a tilted pair | Rot/VanDerWaalsTilt | the operator at unit distance and angle theta from the angular operators and the angle factors, by the formula for the dipole-dipole interaction; then as C122 and C123 | proved | Exact arithmetic. Distance vector in the xz-plane, order 3, no Green tensor, positive distance; no angle factor lies between 0 and the tolerance 1e-16 of SystemTwo. Spins 0 and 1/2, deltaN an integer at most n - l; in the matrix version the states of the level have for each atom the same species, spin, n and l. The basis contains all virtual states of the sums with any total m (C6BasisTilt). |
| C125 | The eigenvalues of the C3 matrix are the resonant dipole-dipole shifts | Rot/ResonantShift | the entries of SystemTwo's operator at unit distance are the elements of getC3; first-order perturbation theory for a degenerate level with a bound of the rest, and Weyl's inequality for the numbering of the levels | proved | Exact arithmetic. Distance vector in the xz-plane (or on the z axis), order 3, no Green tensor, positive distance; no angle factor lies between 0 and the tolerance 1e-16 of SystemTwo. The two classes use one cache of matrix elements. SystemTwo's basis is the given product basis (V = 1 at the start). |
| C126 | Levels in weak fields: Lande factor, no linear Stark effect | Rot/WeakFields | the interaction within the level is diagonal with the Lande shifts (C117) and its electric part vanishes by parity; first-order perturbation theory with a bound of the elements only; Weyl's inequality for diamagnetism and the tolerance; rotation covariance (C80) for other directions | proved | Exact arithmetic. Without ion (charge 0 or no distance). The states with the energy E0 are sublevels of one fine-structure level; SystemOne's basis is the given product basis (V = 1 at the start). 1e-23 covers field components the library ignores (below 1e-24). |
| C127 | Quadratic Stark shift of a fine-structure level | Rot/StarkShift | second-order perturbation theory (C123) with the dipole operator along z, which vanishes within the level by parity and whose second-order operator is diagonal in m; rotation covariance (C80) for other directions; time reversal (C111) for m and -m | proved | Exact arithmetic. Without ion (charge 0 or no distance) and magnetic field. The states with the energy E0 are sublevels of one fine-structure level; SystemOne's basis is the given product basis (V = 1 at the start). 1e-23 covers field components the library ignores (below 1e-24). Polarizabilities are the sums over the states of the basis. |
| C128 | Degenerate levels in weak fields: linear Stark effect | Rot/LinearStark | first-order perturbation theory with a bound of the elements only (as in C125), applied to the interaction divided by the strength; Weyl's inequality for diamagnetism and the tolerance | proved | Exact arithmetic. Without ion (charge 0 or no distance). SystemOne's basis is the given product basis (V = 1 at the start). 1e-23 covers field components the library ignores (below 1e-24). |

## 4. Axioms

`#print axioms` for every theorem named in MANIFEST.json:

* `propext, Classical.choice, Quot.sound`: all theorems not listed below (498 theorems).
* `propext`: `C12_reprepare_needs_reset`, `C13_iteration_partial`, `C13_iteration_fails`, `C14_json_round_trip_fails`, `C54_other_configuration`, `C55_negative_m_fails`, `C55_index_is_not_position`, `C56_initial_removed_fails`, `C56_remove_keep`, `C57_view_fails`, `C77_wide_indices_fails`, `C94_compared_settings_partial`, `C107_matrices_untouched`, `C107_failed_load_fails`
* `propext, Quot.sound`: `C02_pair_hash`, `C08_write_once_cache`, `C10_concurrent_values_partial`, `C10_no_spurious_failure_partial`, `C10_concurrent_construction_fails`, `C10_concurrent_values_fails`, `C11_depends_on_clipped`, `C14_json_round_trip_partial`, `C56_remove`, `C56_remove_short_mask`, `C57_part_refused`
* `none`: `C57_huge_product_fails`, `C58_defect_database_fails`, `C77_from_python_partial`, `C77_zero_dim_fails`

## 5. Lines of the code that carry a definition of the model

Collected from the citations in the comments (neighbouring ranges merged).

| file | lines | cited ranges | modules |
|----|----|----|----|
| Basisnames.cpp | 441 | 28-430 | Legacy/Basisnames, Legacy/KeyModel, Legacy/MainModel |
| Basisnames.hpp | 115 | 37-49, 66 | Legacy/Basisnames, Legacy/KeyModel |
| Cache.hpp | 103 | 33-41, 59-64, 87-100 | Defect/Model |
| ConfParser.cpp | 48 | 25-48 | Conf/Model |
| ConfParser.hpp | 268 | 47-113, 176-181, 190, 200, 208, 256-265 | Conf/Model, Legacy/KeyModel, Legacy/MainModel, Matfile/Model |
| Constants.hpp | 57 | 23-43 | Legacy/ElemModel, Legacy/UnitsThm, Serialize |
| GreenTensor.cpp | 241 | 30-241 | Green/Model |
| GreenTensor.hpp | 64 | 45-60 | Green/Model |
| Hamiltonian.hpp | 52 | 29-53 | Legacy/KeyModel, Legacy/RestrictModel |
| HamiltonianOne.cpp | 659 | 31-100, 127-151, 186-197, 204-232, 311-407, 443-652 | Legacy/HamOneModel, Legacy/KeyModel, Legacy/StepsModel, Legacy/ThreadsModel, Legacy/ThreadsThm, Matfile/Model |
| HamiltonianTwo.cpp | 891 | 27-260, 281-388, 419-605, 643-682, 690-884 | Legacy/CombineModel, Legacy/Exchange, Legacy/KeyModel, Legacy/MainModel, Legacy/RestrictModel, Legacy/StepsModel, Legacy/ThreadsModel, Legacy/TwoModel, Matfile/Model |
| Hamiltonianmatrix.cpp | 839 | 29-805 | Legacy/CombineModel, Legacy/HamOneModel, Legacy/RestrictModel, Matfile/Model, Matfile/ObjModel |
| Hamiltonianmatrix.hpp | 198 | 42-43, 117-132, 152-157 | Matfile/Model, Matfile/ObjModel |
| Interface.cpp | 115 | 40-111 | Legacy/KeyModel, Legacy/MainModel, Legacy/StepsModel |
| MatrixElementCache.cpp | 971 | 39-266, 292-305, 350-492, 502-525, 532-966 | ElemCache/DipoleModel, ElemCache/Model, ElemCache/PrecalcModel, ElemCache/Props, Element/Model, Element/Props, Field/Model, Legacy/Elem, Pair/Model, Serialize |
| MatrixElementCache.hpp | 241 | 173-238 | ElemCache/Model, Serialize |
| MatrixElements.cpp | 989 | 36-71, 79-563 | Legacy/ElemModel, Legacy/KeyModel |
| MatrixElements.hpp | 85 | 79-90 | Legacy/ElemModel |
| NumpyUtils.hpp | 556 | 47, 105-116, 131-204, 236-312, 327-357, 448-456, 478-487, 508-548 | Numpy |
| PerturbativeInteraction.cpp | 381 | 39-381 | Pert/Model |
| QuantumDefect.cpp | 208 | 70-197 | Defect/Model |
| QuantumDefect.hpp | 169 | 50-75 | Defect/Model, Wave/Model |
| SQLite.hpp | 405 | 77-82, 97-109, 116-119, 130-139, 148-171, 178-181, 191-195, 203-217, 258-285, 296-304, 316 | Defect/Model, Sqlite/Model |
| Serializable.hpp | 388 | 30, 45-56, 65-91, 101-130, 150-374 | Matfile/Model |
| State.cpp | 323 | 67-70, 103-114, 147-187, 276-278, 313-315 | ElemCache/Dipole, Element/Model, Pair/BasisModel, Pair/SectorModel, Rot/StateModel, Sys/LookupModel, SysOne/LifeModel, SysOne/Model |
| StateOld.cpp | 291 | 88-91, 103-108, 152-155, 226-229, 249-257 | Legacy/Basisnames, Legacy/ElemModel, Legacy/KeyModel |
| StateOld.hpp | 200 | 48-110 | Legacy/Basisnames |
| Symmetry.hpp | 55 | 26-36 | Legacy/CombineModel, SysOne/Model |
| SystemBase.cpp | 1643 | 69-76, 88-149, 204-211, 229-356, 371-384, 391-561, 569-683, 690-1082, 1089-1301, 1312-1396, 1413-1427, 1434-1552, 1559-1632 | Pair/BasisModel, Pair/SelectModel, Pair/Settings, Pair/SymModel, Rot/AxesModel, Rot/StateModel, Serialize, Sys/CombineModel, Sys/EffModel, Sys/HamModel, Sys/LabelModel, Sys/LookupModel, Sys/Model, Sys/WindowModel, SysOne/LifeModel, SysOne/Model |
| SystemBase.hpp | 413 | 72-74, 285-320, 363-369, 394-408 | Serialize, Sys/HamModel, Sys/LabelModel, Sys/Model, SysOne/LifeModel, SysOne/Model |
| SystemOne.cpp | 892 | 36-45, 56-65, 72-80, 135-331, 338-627, 668-763, 774-846, 853-889 | Field/Model, Field/Props, Rot/StateModel, Serialize, Sys/CombineModel, Sys/HamModel, SysOne/LifeModel, SysOne/Model |
| SystemOne.hpp | 189 | 78-101, 120-157, 168-178 | Field/Model, Rot/StateModel, Serialize, Sys/CombineModel |
| SystemTwo.cpp | 1614 | 34-194, 204-217, 236-259, 281-452, 459-620, 656-800, 848-1190, 1225-1369, 1408-1515, 1528-1530, 1537-1610 | Pair/BasisModel, Pair/Model, Pair/SectorModel, Pair/SelectModel, Pair/Settings, Pair/SymModel, Pair/User, Rot/StateModel, Serialize, Sys/CombineModel, Sys/LookupModel |
| SystemTwo.hpp | 209 | 81-114, 124-198 | Pair/BasisModel, Pair/Model, Pair/Settings, Pair/SymModel, Rot/StateModel, Serialize, Sys/CombineModel |
| Wavefunction.cpp | 177 | 39-177 | Legacy/UnitsThm, Wave/Model, Wave/WhittakerModel |
| Wavefunction.hpp | 313 | 100, 129, 186, 217, 233-264, 281-311 | Wave/Model |
| WignerD.cpp | 61 | 24-61 | Rot/WignerD |
| main.cpp | 96 | 25-97 | Legacy/MainModel |
| serialization_eigen.hpp | 112 | 55-109 | Matfile/Model |
| utils.hpp | 194 | 52-62, 69-75, 163-193 | Rot/StateModel, Sys/LabelModel, Sys/LookupModel, SysOne/Model |

## 6. What is not modelled

* Legacy program: modelled are the basis construction, the matrix elements (not the unused overload for vectors of states), the one-atom
  Hamiltonian, the interaction of two atoms, the symmetrised blocks, the matrix files and the parameter keys; not modelled are `main.cpp`, `Interface.cpp` and the parts of
  `HamiltonianTwo.cpp` and `Hamiltonianmatrix.cpp` beyond the cited lines.
* Tokenizing and number syntax of the files read by `MatrixElementCache::loadElectricDipoleDB`, and the SQL text of the statements.
* Page-level behaviour of SQLite (journal mode, locking), the file system below whole write calls.
* Numerical accuracy: rounding, convergence of the Numerov integration (the exact recurrence is proved, not its error), accuracy of
  Eigen's eigensolver (assumed to return a unitary matrix that diagonalizes).
* Threads: only the caches that are shared (quantum defects, matrix elements) are modelled with interleavings; and the OpenMP loops of the
  legacy program over fields and distances (atomic actions, C93); the other OpenMP loops are not.
* Python bindings except the NumPy conversions and the pickling hooks.

## 7. Disagreements between the code and the properties (each a theorem `_fails`)

Found while proving; all refer to the pinned commit.

* Quantum defects: a mistyped database name silently reuses the tables of the previous database (C09); two threads that miss the same
  key let one of them throw (C10).
* SQLite iteration gives the right rows only if there are exactly two (C13); configuration keys with dots do not survive JSON (C14).
* Matrix elements: the orbital-commuting matrix element is non-zero for different l (C17, C63); changing the method while elements wait
  stores them under the wrong method, and a throwing computation poisons the cache (C22-C24).
* One-atom basis: inverted intervals and intervals of the wrong class are ignored or too strict (C25), unphysical j are admitted (C26),
  reflection symmetry is wrong for integer j (C29).
* Systems: lookups of absent states and long lists read out of bounds (C32, C69), indices above 2^63 pass the check (C33),
  `getHamiltonianEntry` is conjugated for complex scalars (C34), stale Hamiltonians after several operation orders (C35), a refused
  `add` leaves the object broken (C67), states requested twice are counted twice (C68).
  Combining systems whose Hamiltonians were built leaves out the coupling between them; settings of ions and Green tensors are not
  compared (C94).
* Fields and pairs: a rejected field is stored (C40); different one-atom systems and incomplete bases (C41, C73); symmetrised pair vectors
  are projections only (C74); atoms along -z get dipole-quadrupole terms of the wrong sign (C71); a y component enables the Green tensor
  for good (C72); the Le Roy radius survives `add` (C62).
* Green tensor: gradient along y missing above a surface and heights changed by rejected calls (C46, C47).
* Perturbation theory: intermediate states missed for triplets and for l differing by two (C48, C49).
* Legacy: wrong window for negative m (C55); last column pointer not saved (C64); parameters printed with six digits (C65); matrix elements
  reloaded with six digits and concurrent runs that throw (C85); diamagnetic quadrupole elements lost between equal l, j, m (C86);
  elements of the second atom read back with six digits, so that the interaction of equal atoms is not symmetric under exchange (C87).
  Symmetrised blocks with reflection hold vectors twice with inversion and for non-zero momentum, and unnormalised vectors with permutation
  in a field (C91); the one-atom loop may
  query a table that another thread has not yet created, equal configurations in one run may violate the UNIQUE constraint (C93).
  Zero steps with changing fields read an empty vector (C96). The restriction of one-atom states keeps states near neither initial state in a
  common basis, and can leave more vectors than pair states (C97).
  After a failed call a one-atom system may have forgotten its restrictions, keep a refused symmetry, or throw on every later getter (C98).
  diagonalize with an energy window ignores the window for diagonal Hamiltonians, underestimates the number of eigenvalues, and leaves one-based
  index arrays behind if it throws (C99).
* Dipole elements loaded with the higher level first get the opposite sign for odd j differences, forbidden rows divide by zero (C92).
* NumPy views larger than the buffer are accepted (C57), sparse conversions without entries or with 64 bit indices (C77).
* Serialization loses the ion settings, the Green tensor flag and others (C58).
