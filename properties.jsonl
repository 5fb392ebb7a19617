{"id": "C01", "title": "One-atom states are totally ordered, consistently with equality", "statement": "For physical one-atom states, exactly one of a<b, a==b, b<a holds, < is transitive, <= is < or ==, != is the negation of ==, and two states compare equal exactly when species, n, l, j and m all agree. Users keep states in sorted sets and maps.", "quantifier": "all pairs and triples of one-atom states", "why_tests_cant": "infinitely many quantum-number tuples; a test samples a few", "anchors": ["pairinteraction/State.cpp: StateOne::operator==, operator!=, operator<, operator<="]}
{"id": "C02", "title": "Equal states hash equally and the hash is a function of the quantum numbers", "statement": "Two states that compare equal have the same hash, for one- and two-atom states, artificial or not, so unordered containers never hold the same state twice.", "quantifier": "all states", "why_tests_cant": "the implication must hold for every pair of equal states", "anchors": ["pairinteraction/State.cpp: StateOne::getHash, StateTwo::getHash", "pairinteraction/utils.hpp: hash_combine"]}
{"id": "C03", "title": "Wildcard matching of generalized states", "statement": "a^b is true exactly when the species agree and every quantum number of b is either ARB or equal to that of a; every state matches itself, equality implies matching, matching a state without wildcards is equality, and matching is transitive.", "quantifier": "all states, with wildcards in any subset of the components", "why_tests_cant": "2^4 wildcard patterns times infinitely many values", "anchors": ["pairinteraction/State.cpp: StateOne::operator^, StateTwo::operator^, isGeneralized"]}
{"id": "C04", "title": "Reflection of a state", "statement": "Reflecting a state negates m and nothing else, reflecting twice is the identity, and a reflected state equals the original exactly when m=0. Reflecting an artificial state throws. The same holds atom by atom for pair states.", "quantifier": "all one- and two-atom states", "why_tests_cant": "must hold for every state", "anchors": ["pairinteraction/State.cpp: StateOne::getReflected, StateTwo::getReflected"]}
{"id": "C05", "title": "Artificial and physical states never leak undefined quantum numbers", "statement": "A state built from quantum numbers returns exactly those numbers from its getters and throws when asked for a label; a state built from a label returns that label and throws when asked for any quantum number. A pair state applies the rule atom by atom.", "quantifier": "all constructor arguments and all getters", "why_tests_cant": "the guard must hold for every constructor/getter combination", "anchors": ["pairinteraction/State.cpp: StateOne::StateOne, StateOne::get*, shouldBeArtificial"]}
{"id": "C06", "title": "Pair states: projections and order", "statement": "A pair state built from two one-atom states returns these from getFirstState/getSecondState; == is componentwise; < is the lexicographic total order.", "quantifier": "all pair states", "why_tests_cant": "all pairs and triples", "anchors": ["pairinteraction/State.cpp: StateTwo::StateTwo, operator==, operator<, getFirstState, getSecondState"]}
{"id": "C07", "title": "Legacy pair ordering is canonical", "statement": "StateTwoOld::order returns the same quantum numbers for (a,b) and (b,a), is idempotent, and returns one of the two arrangements.", "quantifier": "all legacy pair states", "why_tests_cant": "all pairs", "anchors": ["pairinteraction/StateOld.cpp: StateTwoOld::order"]}
{"id": "C08", "title": "Write-once cache", "statement": "For every history of save/restore/clear: restore returns the value of the last successful save since the last clear, or nothing; save of a present key throws and changes nothing; a value once readable never changes until clear.", "quantifier": "all operation histories", "why_tests_cant": "unbounded histories", "anchors": ["pairinteraction/Cache.hpp: Cache::save, restore, clear"]}
{"id": "C09", "title": "Quantum defect objects do not depend on what was constructed before", "statement": "In every single-threaded history of constructing QuantumDefect objects with any species, n, l, j and database names, each constructor gives the parameters and energy a fresh process would give for those arguments.", "quantifier": "all histories of constructor calls, with any interleaving of database names", "why_tests_cant": "unbounded histories through a static cache", "anchors": ["pairinteraction/QuantumDefect.cpp: QuantumDefect::setup, QuantumDefect::QuantumDefect"]}
{"id": "C10", "title": "Concurrent construction of quantum defect objects", "statement": "Whatever the schedule, threads that construct QuantumDefect objects get correct values, and no construction fails that would succeed alone.", "quantifier": "all interleavings of the cache's atomic operations by any number of threads", "why_tests_cant": "schedules cannot be enumerated by tests", "anchors": ["pairinteraction/QuantumDefect.cpp: QuantumDefect::setup", "pairinteraction/Cache.hpp"]}
{"id": "C11", "title": "Rydberg-Ritz energies", "statement": "The level energy is -1/2*(Ry/Ry_inf)/nstar^2 in atomic units, negative whenever nstar is non-zero, strictly increasing with nstar>0, and depends on l and j only through min(l, max tabulated l) and the corresponding clipped j.", "quantifier": "all table contents and quantum numbers", "why_tests_cant": "real-valued parameters", "anchors": ["pairinteraction/QuantumDefect.cpp: setup", "pairinteraction/QuantumDefect.cpp: energy_level, nstar"]}
{"id": "C12", "title": "SQLite statement protocol", "statement": "For every sequence of prepare/step/reset/bind on a statement: stepping an unprepared statement raises misuse, stepping past the last row raises instead of silently restarting, each result row is returned exactly once between resets, and reset allows re-execution.", "quantifier": "all call sequences and result lengths", "why_tests_cant": "unbounded call sequences", "anchors": ["pairinteraction/SQLite.hpp: sqlite::statement::step, reset, prepare"]}
{"id": "C13", "title": "Iterating over an SQLite result visits every row once", "statement": "A range-for loop over a prepared statement visits exactly the rows of the result, in order, whatever their number.", "quantifier": "all result lengths", "why_tests_cant": "all lengths", "anchors": ["pairinteraction/SQLite.hpp: sqlite::statement::iterator"]}
{"id": "C14", "title": "Saving and loading a configuration preserves it", "statement": "Saving a configuration to JSON and loading it into an empty configuration yields an equal configuration.", "quantifier": "all configurations (all keys and values)", "why_tests_cant": "all key strings", "anchors": ["pairinteraction/ConfParser.cpp: Configuration::save_to_json, load_from_json"]}
{"id": "C15", "title": "Merging configurations", "statement": "a += b: afterwards every key of b has b's value, every other key keeps a's value and the key set is the union; a==b is an equivalence and reads of a missing key through a const reference throw.", "quantifier": "all configurations and histories of updates", "why_tests_cant": "all contents", "anchors": ["pairinteraction/ConfParser.hpp: Configuration::operator+=, operator==, operator[]"]}
{"id": "C16", "title": "Angular matrix elements do not depend on the order in which they are looked up", "statement": "The stored value for a pair of angular states times the key's sign equals the 3j-symbol formula for the pair in the order the caller asked, whichever of the two orders filled the cache.", "quantifier": "all kappa, j1, m1, j2, m2 (integer or half-integer)", "why_tests_cant": "all quantum numbers; sign errors show only for special parities", "anchors": ["pairinteraction/MatrixElementCache.cpp: CacheKey_angular, getElectricMultipole, calculateAngular"]}
{"id": "C17", "title": "Commuting-spin reduced elements do not depend on lookup order", "statement": "For both commuting cases the stored value times the key's sign equals the 6j formula for the order the caller asked.", "quantifier": "all kappa, s, l1, j1, l2, j2", "why_tests_cant": "all quantum numbers", "anchors": ["pairinteraction/MatrixElementCache.cpp: CacheKey_reduced_commutes"]}
{"id": "C18", "title": "Reduced multipole elements do not depend on lookup order", "statement": "The stored value times (-1)^kappa for swapped keys equals the formula (-1)^l1 sqrt((2l1+1)(2l2+1)) 3j(l1 kappa l2;0 0 0) for the order the caller asked.", "quantifier": "all kappa, l1, l2", "why_tests_cant": "parity-dependent", "anchors": ["pairinteraction/MatrixElementCache.cpp: CacheKey_reduced_multipole"]}
{"id": "C19", "title": "Radial keys are symmetric and faithful", "statement": "Two radial lookups share a cache entry exactly when method, species and kappa agree and the unordered pairs of (n,l,j) agree.", "quantifier": "all radial keys", "why_tests_cant": "all quantum numbers", "anchors": ["pairinteraction/MatrixElementCache.cpp: CacheKey_radial, operator=="]}
{"id": "C20", "title": "Selection rules are sound", "statement": "Whenever the multipole (momentum) selection rule rejects a pair of states, the corresponding angular factor is zero, so skipping the pair drops nothing from the Hamiltonian.", "quantifier": "all pairs of states, all kappa and q", "why_tests_cant": "all quantum numbers", "anchors": ["pairinteraction/MatrixElementCache.cpp: selectionRulesMultipoleNew, selectionRulesMomentumNew"]}
{"id": "C21", "title": "Electric multipole elements form a Hermitian tensor operator", "statement": "<b|Q_{k,q}|a> = (-1)^q <a|Q_{k,-q}|b> for all states and kappa: the operator matrices built from the elements satisfy O_q^dagger=(-1)^q O_{-q}.", "quantifier": "all pairs of states, all kappa", "why_tests_cant": "all quantum numbers", "anchors": ["pairinteraction/MatrixElementCache.cpp: getElectricMultipole"]}
{"id": "C22", "title": "Matrix element lookups do not depend on history", "statement": "For every history of precalculations and lookups, a lookup returns what a fresh cache would compute for the same arguments and the same current settings (integration method, quantum-defect database).", "quantifier": "all histories of get/precalculate/setMethod/setDefectDB", "why_tests_cant": "unbounded histories", "anchors": ["pairinteraction/MatrixElementCache.cpp: update, precalculate, getRadial, setMethod, setDefectDB"]}
{"id": "C23", "title": "The matrix element database survives crashes and concurrent processes", "statement": "If a process dies at any point while writing the element database, or several processes write to it, every row left in it is a correct value and later lookups return what a fresh cache would return.", "quantifier": "all crash points and interleavings of transactions", "why_tests_cant": "crash points and interleavings", "anchors": ["pairinteraction/MatrixElementCache.cpp: update", "pairinteraction/SQLite.hpp"]}
{"id": "C24", "title": "A failed lookup does not break later lookups", "statement": "If computing one matrix element throws, later lookups of other, computable elements on the same cache succeed.", "quantifier": "all histories containing failing lookups", "why_tests_cant": "history property", "anchors": ["pairinteraction/MatrixElementCache.cpp: update"]}
{"id": "C25", "title": "A range restriction keeps exactly the requested interval", "statement": "restrictN(a,b) (L, J, M) leaves exactly the states with a<=n<=b in the basis, for every a and b, including b<a.", "quantifier": "all interval bounds and all basis states", "why_tests_cant": "all bounds", "anchors": ["pairinteraction/SystemBase.hpp: range", "pairinteraction/SystemBase.cpp: restrictN", "pairinteraction/SystemOne.cpp: initializeBasis"]}
{"id": "C26", "title": "The one-atom basis is exactly the set of allowed states", "statement": "Without symmetries, the built basis contains each state with n in range, 0<=l<n, |l-s|<=j<=l+s, |m|<=j that passes the range and energy restrictions exactly once, and nothing else.", "quantifier": "all restriction settings and species spins", "why_tests_cant": "all settings", "anchors": ["pairinteraction/SystemOne.cpp: initializeBasis"]}
{"id": "C27", "title": "Energy windows", "statement": "A state is kept by restrictEnergy(a,b) exactly when a<E<b; without an energy restriction every state is kept.", "quantifier": "all energies and bounds", "why_tests_cant": "all reals", "anchors": ["pairinteraction/SystemBase.cpp: checkIsEnergyValid, restrictEnergy"]}
{"id": "C28", "title": "Conserved momentum restriction", "statement": "With setConservedMomentaUnderRotation(S) the basis keeps exactly the states with m in S; with the ARB marker it keeps all.", "quantifier": "all momentum sets and states", "why_tests_cant": "all sets", "anchors": ["pairinteraction/SystemOne.cpp: initializeBasis, checkIsSymmetryValid / setConservedMomentaUnderRotation"]}
{"id": "C29", "title": "Reflection-symmetrized one-atom basis vectors", "statement": "For either reflection parity the basis vectors are orthonormal eigenvectors of the reflection, and the EVEN and ODD bases together span the unsymmetrized space, each vector once.", "quantifier": "all (l,j,m,s) and both parities", "why_tests_cant": "all states", "anchors": ["pairinteraction/SystemOne.cpp: addSymmetrizedBasisvectors"]}
{"id": "C30", "title": "Removing states keeps indices and coefficients consistent", "statement": "After states are removed, the remaining states keep their order, their indices are 0..N-1, and each keeps the coefficient row it had.", "quantifier": "all state lists and removal masks", "why_tests_cant": "all masks", "anchors": ["pairinteraction/SystemBase.cpp: removeRestrictedStates"]}
{"id": "C31", "title": "Connections between two systems are a partial bijection", "statement": "getConnections returns pairs of basis vector indices in which no index of either system occurs twice and the two vectors of each pair are each other's largest-overlap partners, with a squared overlap above the threshold.", "quantifier": "all pairs of systems and thresholds", "why_tests_cant": "all coefficient matrices", "anchors": ["pairinteraction/SystemBase.cpp: getConnections, getMainStates"]}
{"id": "C32", "title": "Basis vector lookup is an injective assignment", "statement": "getBasisvectorIndex for a list of states returns pairwise different basis vectors, one for each state, never out of range.", "quantifier": "all coefficient matrices and state lists", "why_tests_cant": "all inputs", "anchors": ["pairinteraction/SystemBase.cpp: getBasisvectorIndex"]}
{"id": "C33", "title": "Constraining basis vectors rejects bad indices", "statement": "constrainBasisvectors accepts an index list exactly when the indices are distinct and smaller than the number of basis vectors; otherwise it throws before changing the system.", "quantifier": "all index lists", "why_tests_cant": "all lists including the not-found marker", "anchors": ["pairinteraction/SystemBase.cpp: constrainBasisvectors"]}
{"id": "C34", "title": "Hamiltonian entries read back what was written", "statement": "After setHamiltonianEntry(a,b,v), getHamiltonianEntry(a,b) returns v and getHamiltonianEntry(b,a) returns conj(v), other entries are unchanged and the Hamiltonian stays Hermitian.", "quantifier": "all systems with an orthonormal complete basis, all states, all values", "why_tests_cant": "all values and bases", "anchors": ["pairinteraction/SystemBase.cpp: getHamiltonianEntry, setHamiltonianEntry, addHamiltonianEntry"]}
{"id": "C35", "title": "The Hamiltonian depends only on the current parameters", "statement": "After any history of parameter changes and Hamiltonian builds the Hamiltonian equals the one a fresh system with the current parameters would build, or the call throws.", "quantifier": "all histories of setters, builds, diagonalizations", "why_tests_cant": "unbounded histories", "anchors": ["pairinteraction/SystemBase.cpp: buildHamiltonian, onParameterChange, onSymmetryChange"]}
{"id": "C36", "title": "Basis changes preserve the represented operator", "statement": "diagonalize, canonicalize and unitarize leave the operator V H V^dagger (and therefore its spectrum) unchanged when the basis vectors are orthonormal.", "quantifier": "all Hermitian Hamiltonians and orthonormal bases", "why_tests_cant": "all matrices", "anchors": ["pairinteraction/SystemBase.cpp: diagonalize, canonicalize, unitarize, applyRightsideTransformator, applyLeftsideTransformator"]}
{"id": "C37", "title": "The atom-in-field Hamiltonian is Hermitian", "statement": "For every electric and magnetic field vector the field Hamiltonian added by SystemOne is Hermitian.", "quantifier": "all fields and all bases", "why_tests_cant": "all fields", "anchors": ["pairinteraction/SystemOne.cpp: addInteraction, changeToSphericalbasis, setEfield, setBfield"]}
{"id": "C38", "title": "The diamagnetic terms add up to (B x r)^2", "statement": "The spherical-tensor combination used for the diamagnetic interaction equals |B|^2 r^2-(B.r)^2 times the common prefactor for all B and r.", "quantifier": "all vectors B, r", "why_tests_cant": "all reals", "anchors": ["pairinteraction/SystemOne.cpp: addInteraction, setBfield (diamagnetism_terms)"]}
{"id": "C39", "title": "Spherical field components", "statement": "The conversion to spherical components is injective, preserves the scalar product (E.d = E0 d0 - E+ d- - E- d+), satisfies E- = -conj(E+), and for the real scalar type any non-zero y component is rejected.", "quantifier": "all field vectors", "why_tests_cant": "all reals", "anchors": ["pairinteraction/SystemOne.cpp: changeToSphericalbasis", "pairinteraction/HamiltonianOne.cpp: changeToSpherical"]}
{"id": "C40", "title": "A rejected field leaves the system unchanged", "statement": "If setEfield/setBfield throws, the system still reports and uses the previous field.", "quantifier": "all histories", "why_tests_cant": "failure atomicity over histories", "anchors": ["pairinteraction/SystemOne.cpp: setEfield, setBfield"]}
{"id": "C41", "title": "Permutation-symmetrized pair basis", "statement": "With a permutation symmetry the pair basis vectors are orthonormal, each is an eigenvector of the atom exchange with the requested sign, and EVEN and ODD together span the pair space.", "quantifier": "all one-atom systems of any size (at least two vectors) whose vectors are a complete orthonormal basis of their states, used for both atoms; all norm thresholds below 1/4", "why_tests_cant": "all sizes and pairs", "anchors": ["pairinteraction/SystemTwo.cpp: initializeBasis"]}
{"id": "C42", "title": "Pair interaction operators read are always initialised", "statement": "addInteraction only uses interaction operators that initializeInteraction created for the same parameters (angle, order, Green tensor), for every parameter setting.", "quantifier": "all angles, orders, distances, Green tensor settings", "why_tests_cant": "all settings", "anchors": ["pairinteraction/SystemTwo.cpp: initializeInteraction, addInteraction"]}
{"id": "C43", "title": "The dipole-dipole angular terms", "statement": "The angular coefficients used for the dipole-dipole interaction equal the spherical components of 1-3 r r^T at angle theta; they agree with the special case used at theta=0; they are symmetric under exchange of the atoms.", "quantifier": "all angles", "why_tests_cant": "all reals", "anchors": ["pairinteraction/SystemTwo.cpp: initializeInteraction (angle_terms)", "pairinteraction/PerturbativeInteraction.cpp: initializeAngleTerms"]}
{"id": "C44", "title": "The pair multipole Hamiltonian is Hermitian and conserves the total momentum", "statement": "Along the z axis, the multipole interaction of every order is Hermitian and couples only pair states with equal total m.", "quantifier": "all orders and bases", "why_tests_cant": "all orders", "anchors": ["pairinteraction/SystemTwo.cpp: initializeInteraction, addInteraction"]}
{"id": "C45", "title": "Vacuum Green tensor", "statement": "For every separation the dipole-dipole tensor is symmetric, traceless, invariant under inversion and scales with the inverse cube of the distance; the dipole-quadrupole tensors are its gradients.", "quantifier": "all separations", "why_tests_cant": "all reals", "anchors": ["pairinteraction/GreenTensor.cpp: getDDTensorVacuum, getDQTensorVacuum, getQDTensorVacuum"]}
{"id": "C46", "title": "Surface Green tensor", "statement": "The surface contribution is the field of the image dipole; exchanging the atoms transposes it; its gradients are the dipole-quadrupole contributions; atoms inside the plate are rejected.", "quantifier": "all separations and surface distances", "why_tests_cant": "all reals", "anchors": ["pairinteraction/GreenTensor.cpp: addSurface, getDDTensorPlate, getDQTensorPlate, getQDTensorPlate"]}
{"id": "C47", "title": "Green tensor getters do not depend on call history", "statement": "For every history of addSurface and getter calls, a getter returns the tensor for the surface set last (successfully).", "quantifier": "all call histories", "why_tests_cant": "histories including failed calls", "anchors": ["pairinteraction/GreenTensor.cpp: addSurface, getDDTensor, getDQTensor, getQDTensor"]}
{"id": "C48", "title": "C6 sums over every dipole-coupled intermediate state", "statement": "For each pair state the scalar getC6 visits exactly the intermediate pair states (n within deltaN) that are dipole-allowed for both atoms, each once.", "quantifier": "all pair states and species spins", "why_tests_cant": "all quantum numbers", "anchors": ["pairinteraction/PerturbativeInteraction.cpp: getC6(StateTwo)"]}
{"id": "C49", "title": "The effective C6 matrix sums over every dipole-coupled intermediate state", "statement": "For each matrix element the sum visits every intermediate pair state outside the model space that is dipole-coupled to both states.", "quantifier": "all pairs of pair states", "why_tests_cant": "all quantum numbers", "anchors": ["pairinteraction/PerturbativeInteraction.cpp: getC6(vector)"]}
{"id": "C50", "title": "Perturbative matrices are symmetric", "statement": "getC3, getC6 and getEnergy return symmetric matrices, getC3 has zero diagonal and getEnergy is diagonal, for every list of states.", "quantifier": "all lists", "why_tests_cant": "all lists", "anchors": ["pairinteraction/PerturbativeInteraction.cpp: getC3, getC6, getEnergy"]}
{"id": "C51", "title": "Grid search", "statement": "findidx on an increasing grid terminates, returns a valid index whose grid value agrees with the searched value up to the stated tolerance, and finds every value that is on the grid.", "quantifier": "all grids and values", "why_tests_cant": "all lengths and values", "anchors": ["pairinteraction/Wavefunction.hpp: findidx"]}
{"id": "C52", "title": "Radial wave functions are normalised and radial integrals symmetric", "statement": "The Numerov result is normalised (unless identically zero), its starting sign follows n-l, and the radial integral does not depend on the order of its two states.", "quantifier": "all grids and potentials", "why_tests_cant": "all reals", "anchors": ["pairinteraction/Wavefunction.cpp: Numerov::integrate", "pairinteraction/Wavefunction.hpp: IntegrateRadialElement"]}
{"id": "C53", "title": "Binary matrix files round-trip", "statement": "Serializing a list of typed scalars and vectors and deserializing it in the same order yields the same values.", "quantifier": "all lists of items", "why_tests_cant": "all contents", "anchors": ["pairinteraction/Serializable.hpp: Serializer"]}
{"id": "C54", "title": "A truncated matrix file is never taken for a valid one", "statement": "If the program dies at any point while a matrix file is being written, a later run detects this and recomputes the matrix instead of using partial data.", "quantifier": "all crash points (all proper prefixes of the file)", "why_tests_cant": "all crash points", "anchors": ["pairinteraction/Serializable.hpp: deserialize", "pairinteraction/Hamiltonianmatrix.cpp: save, load", "pairinteraction/HamiltonianOne.cpp: build"]}
{"id": "C55", "title": "Legacy one-atom basis is exactly the requested neighbourhood", "statement": "The legacy basis contains each state with |dn|<=deltaN, |dl|<=deltaL, |dj|<=deltaJ, |dm|<=deltaM and valid quantum numbers exactly once; a negative delta means no restriction on that quantum number.", "quantifier": "all start states and deltas", "why_tests_cant": "all settings", "anchors": ["pairinteraction/Basisnames.cpp: BasisnamesOne::build"]}
{"id": "C56", "title": "Legacy pair basis indexing", "statement": "The pair basis lists every combination once with index i1*N2+i2, the initial state is found when present, and removal of states keeps order and renumbers consecutively.", "quantifier": "all basis sizes and masks", "why_tests_cant": "all sizes", "anchors": ["pairinteraction/Basisnames.cpp: BasisnamesTwo::build, removeUnnecessaryStates"]}
{"id": "C57", "title": "Numpy conversion never exposes foreign memory", "statement": "A numpy array created from a C++ buffer never has more elements than the buffer.", "quantifier": "all lengths and dimension lists", "why_tests_cant": "all dimensions", "anchors": ["pairinteraction/NumpyUtils.hpp: check_array_sanity, convert"]}
{"id": "C58", "title": "Serializing a system preserves everything that influences later results", "statement": "After saving and loading a system, every later operation gives the same result as on the original.", "quantifier": "all system states", "why_tests_cant": "all fields", "anchors": ["pairinteraction/SystemOne.hpp: serialize", "pairinteraction/SystemTwo.hpp: serialize", "pairinteraction/SystemBase.hpp: serialize"]}
{"id": "C59", "title": "Symmetries are totally ordered", "statement": "The comparison used to keep symmetries in sorted sets is a strict total order whose equivalence is equality of all five entries.", "quantifier": "all symmetry records", "why_tests_cant": "all triples", "anchors": ["pairinteraction/Symmetry.hpp: operator<"]}
{"id": "C60", "title": "Sparse matrix archive round-trip", "statement": "Saving a sparse or dense matrix to an archive and loading it gives the same matrix, whatever its sparsity pattern (empty columns included).", "quantifier": "all matrices", "why_tests_cant": "all patterns", "anchors": ["pairinteraction/serialization_eigen.hpp"]}
{"id": "C61", "title": "Wigner d-matrix", "statement": "The small-d matrix element is real, the loop bounds only evaluate binomials and factorials inside their domain, and the returned matrices are those of the rotation exp(-i beta J_y): identity for beta=0, composition, orthogonality, unitarity with Euler angles, for all j, m, m' and angles.", "quantifier": "all j, m, m', beta", "why_tests_cant": "all reals and quantum numbers", "anchors": ["pairinteraction/WignerD.cpp: evalWignerdPiHalf, evalWignerd"]}
{"id": "C62", "title": "Distance and angle settings", "statement": "setDistance keeps the direction and sets the norm; setAngle and setDistanceVector give the documented vector; the Le Roy check warns exactly for the distances below the Le Roy radius.", "quantifier": "all histories of setters", "why_tests_cant": "all reals and histories", "anchors": ["pairinteraction/SystemTwo.cpp: setDistance, setDistanceVector, setAngle, checkDistance"]}
{"id": "C63", "title": "Magnetic dipole elements are Hermitian and conserve l", "statement": "Exchanging bra and ket of getMagneticDipole multiplies the element by (-1)^(m difference), and the element between states of different l is zero, since the operator acts on angular momenta only.", "quantifier": "all pairs of physical states of one species", "why_tests_cant": "infinitely many pairs of states", "anchors": ["pairinteraction/MatrixElementCache.cpp: getMagneticDipole, update (cache_reduced_commutes_l)"]}
{"id": "C64", "title": "A matrix loaded from a cache file equals the one saved", "statement": "For every sparse matrix, saving a Hamiltonian matrix to a file and loading it gives the same entries, basis and dimensions.", "quantifier": "all matrices (any sparsity pattern)", "why_tests_cant": "all patterns", "anchors": ["pairinteraction/Hamiltonianmatrix.cpp: doSerialization, doDeserialization, save, load"]}
{"id": "C65", "title": "A cached matrix is only used for the parameters it was computed with", "statement": "Two parameter sets that differ never share an entry of the matrix cache: a run uses a stored matrix only if it was computed with exactly the parameters of the run.", "quantifier": "all pairs of parameter sets", "why_tests_cant": "all real parameter values", "anchors": ["pairinteraction/ConfParser.hpp: value::operator<<", "pairinteraction/HamiltonianOne.cpp: build", "pairinteraction/HamiltonianTwo.cpp"]}
{"id": "C66", "title": "Restrictions imposed on a built system", "statement": "Restricting quantum numbers or the energy window of an already built, unmixed system leaves exactly the states that lie inside all restrictions, in their order, with unchanged Hamiltonian entries; if none is left the call throws.", "quantifier": "all unmixed systems, all restrictions", "why_tests_cant": "all restrictions and systems", "anchors": ["pairinteraction/SystemBase.cpp: buildBasis, updateEverything, removeRestrictedStates, checkIsEnergyValid"]}
{"id": "C67", "title": "Combining two systems is a direct sum", "statement": "add() refuses systems whose basis vectors overlap; otherwise the combined system has the union of the states, the basis vectors of the first followed by those of the second with unchanged coefficients, and a block diagonal Hamiltonian. A refused call leaves the system as it was.", "quantifier": "all pairs of systems", "why_tests_cant": "all pairs of systems", "anchors": ["pairinteraction/SystemBase.cpp: add"]}
{"id": "C68", "title": "Overlaps are sums of squared coefficients", "statement": "getOverlap returns for each basis vector the sum over the requested states that are in the basis of the squared modulus of its coefficient; it is between 0 and 1 for normalised vectors.", "quantifier": "all systems, all lists of requested states (with and without wildcards)", "why_tests_cant": "all request lists", "anchors": ["pairinteraction/SystemBase.cpp: getOverlap"]}
{"id": "C69", "title": "The main state of a basis vector has its largest coefficient", "statement": "getMainStates returns for each basis vector a state whose coefficient has the largest modulus.", "quantifier": "all coefficient matrices", "why_tests_cant": "all matrices, including empty columns", "anchors": ["pairinteraction/SystemBase.cpp: getMainStates"]}
{"id": "C70", "title": "One-atom interaction operators read are always initialised", "statement": "For every setting of fields, diamagnetism, ion charge, order and distance, building the one-atom Hamiltonian only uses interaction operators that were created for the same settings.", "quantifier": "all field, diamagnetism and ion settings", "why_tests_cant": "real-valued vectors and tolerance comparisons on different components; a missed key silently reads an empty matrix", "anchors": ["pairinteraction/SystemOne.cpp: initializeInteraction, addInteraction"]}
{"id": "C71", "title": "Green tensor and multipole expansion give the same pair interaction", "statement": "In vacuum, the interaction with the Green tensor equals the multipole expansion of the same order for every distance vector (order 4: dipole-dipole plus dipole-quadrupole energy), whichever of the two the settings select.", "quantifier": "all distance vectors, pair states, orders up to 4", "why_tests_cant": "27 Cartesian components with hand-written coefficients; special cases for atoms on the z axis", "anchors": ["pairinteraction/SystemTwo.cpp: initializeInteraction, addInteraction", "pairinteraction/GreenTensor.cpp: getDQTensor, getQDTensor"]}
{"id": "C72", "title": "The pair interaction does not depend on how the settings were reached", "statement": "Two histories of setter calls (not counting enableGreenTensor) that end with the same distance vector, order and surface distance give the same pair interaction, or are both rejected.", "quantifier": "all pairs of histories of setters", "why_tests_cant": "all histories", "anchors": ["pairinteraction/SystemTwo.cpp: setDistanceVector, setSurfaceDistance, enableGreenTensor, initializeInteraction"]}
{"id": "C73", "title": "Building the pair basis is memory safe", "statement": "Building the basis of a two-atom system either succeeds or throws: it never reads or writes outside of its buffers and never converts a non-number to an integer.", "quantifier": "all one-atom systems, symmetries, user-defined states, index lists and thresholds", "why_tests_cant": "Undefined behaviour need not show in a test and depends on the combination of systems and symmetries", "anchors": ["pairinteraction/SystemTwo.cpp: initializeBasis, addBasisvectors, setOneAtomBasisvectors"]}
{"id": "C74", "title": "Inversion, reflection and rotation symmetric pair bases", "statement": "With an inversion, reflection or rotation symmetry every pair basis vector has the requested quantum number; the even and odd inversion bases are orthonormal and together span the pair space, and so do the even and odd reflection bases and the bases of all total momenta.", "quantifier": "all one-atom systems without artificial states, all settings", "why_tests_cant": "all sizes and coefficients", "anchors": ["pairinteraction/SystemTwo.cpp: initializeBasis"]}
{"id": "C75", "title": "Angular factors of the perturbative interaction", "statement": "PerturbativeInteraction(angle) only ever uses initialised angular factors, and together with the spherical dipole operators they are those of the dipole-dipole interaction of two atoms whose axis is tilted by the angle.", "quantifier": "all angles and all dipole-allowed pairs of pair states", "why_tests_cant": "all angles", "anchors": ["pairinteraction/PerturbativeInteraction.cpp: initializeAngleTerms, getC3, getC6"]}
{"id": "C76", "title": "C6 does not depend on the numbering of the atoms", "statement": "For atoms along the quantization axis and for every angle, exchanging the two atoms leaves the C6 coefficient unchanged, and so does mirroring all magnetic quantum numbers.", "quantifier": "all pair states", "why_tests_cant": "all pair states", "anchors": ["pairinteraction/PerturbativeInteraction.cpp: getC6"]}
{"id": "C77", "title": "Matrices survive the conversion to numpy and back", "statement": "A vector, dense matrix or sparse matrix that is converted to a numpy/scipy object and back has the same shape and the same entries.", "quantifier": "all shapes, entries, storage types and index widths", "why_tests_cant": "all shapes including empty ones; memory is reinterpreted without a check", "anchors": ["pairinteraction/NumpyUtils.hpp: convert, sparse_impl, as"]}
{"id": "C78", "title": "Rotating states is a unitary transformation", "statement": "rotate(alpha, beta, gamma) and getOverlap with angles rotate every state with the Wigner D matrix of its total angular momentum: the rotation of a basis with complete Zeeman levels is unitary, angles zero are the identity, (-gamma, -beta, -alpha) undoes the rotation, overlaps with complete Zeeman levels do not depend on the angles, and systems with real coefficients refuse angles whose rotation is not real.", "quantifier": "all angles, all one- and two-atom states, real and complex systems", "why_tests_cant": "all angles and angular momenta, 2j+1 loops with a sparse drop threshold", "anchors": ["pairinteraction/SystemOne.hpp: addRotated", "pairinteraction/SystemTwo.hpp: addRotated", "pairinteraction/SystemOne.cpp: rotateStates, buildStaterotator", "pairinteraction/SystemBase.cpp: rotate, getOverlap"]}
{"id": "C79", "title": "Rotated fields are rotations of the field vector", "statement": "setEfield and setBfield with Euler angles or with new axes store the components of the field in the rotated coordinate system: lengths and angles between fields are unchanged, (-gamma, -beta, -alpha) undoes the rotation, the axes and the Euler angles of the same rotation give the same field, and axes that do not define a rotation are refused.", "quantifier": "all field vectors, angles and axes", "why_tests_cant": "all angles and axes", "anchors": ["pairinteraction/SystemBase.cpp: buildRotator", "pairinteraction/SystemOne.cpp: setEfield, setBfield, rotateVector"]}
{"id": "C80", "title": "Rotating the system equals rotating the fields", "statement": "rotate(alpha, beta, gamma) of a one-atom system in electric and magnetic fields gives the Hamiltonian of the system in the fields set with the same angles; in particular the energies do not depend on the direction of the coordinate axes.", "quantifier": "all complete Zeeman bases, field vectors, diamagnetism settings and angles", "why_tests_cant": "all angles, fields and states; rotation of states and of vectors are coded independently of each other", "anchors": ["pairinteraction/SystemBase.cpp: rotate", "pairinteraction/SystemOne.cpp: addInteraction, setEfield, setBfield", "pairinteraction/WignerD.cpp"]}
{"id": "C81", "title": "The pair interaction rotates with the interatomic axis", "statement": "rotate(alpha, beta, gamma) of a two-atom system gives the Hamiltonian for the distance vector rotated with the same angles, whichever of the formulas (angular operators, multipole expansion along the axis, vacuum Green tensor) the settings select; without fields the pair energies depend only on the length of the distance vector, and rotations about the interatomic axis change nothing.", "quantifier": "all complete Zeeman pair bases, distance vectors, angles and ways to calculate the interaction", "why_tests_cant": "all vectors, angles and pairs of states; three independently coded formulas", "anchors": ["pairinteraction/SystemTwo.cpp: initializeInteraction, addInteraction", "pairinteraction/SystemTwo.hpp: addRotated", "pairinteraction/SystemBase.cpp: rotate", "pairinteraction/GreenTensor.cpp"]}
{"id": "C82", "title": "Effective Hamiltonian of a Schrieffer-Wolff transformation", "statement": "applySchriefferWolffTransformation(system0) leaves an orthonormal basis of the space of those eigenvectors that overlap most with the basis vectors of system0, namely the basis closest to that of system0; the effective Hamiltonian in this basis has exactly the energies of these eigenvectors. Systems that do not qualify are rejected.", "quantifier": "all diagonalised systems, unperturbed systems and orders in which equal overlaps are chosen", "why_tests_cant": "all matrices; the selection of eigenvectors, the square root and the reflections interact", "anchors": ["pairinteraction/SystemBase.cpp: applySchriefferWolffTransformation, checkIsUnitary, checkIsDiagonal, applyRightsideTransformator"]}
{"id": "C83", "title": "Forgetting the state mixing", "statement": "forgetStatemixing replaces every eigenvector by the one state that carries more than half of its probability, using no state twice and keeping the energies, and throws if an eigenvector has no such state.", "quantifier": "all systems with orthonormal eigenvectors", "why_tests_cant": "all matrices", "anchors": ["pairinteraction/SystemBase.cpp: forgetStatemixing"]}
{"id": "C84", "title": "The legacy program uses the same matrix elements", "statement": "The matrix elements that the command line program precalculates and looks up (electric multipole, magnetic dipole and diamagnetic elements) are those of the library for the same constants and radial integrals, for every pair of basis states and every sequence of precalculations.", "quantifier": "all bases, sequences of precalculations, kappa and q", "why_tests_cant": "all quantum numbers and orders of calls; the formulas are coded twice with different keys and caches", "anchors": ["pairinteraction/MatrixElements.cpp: precalculate, getMultipole, getElectricMomentum, getMagneticMomentum, getDiamagnetism, selectionRulesMultipole, selectionRulesMomentum", "pairinteraction/MatrixElementCache.cpp"]}
{"id": "C85", "title": "Matrix elements of the legacy program do not depend on the database left behind", "statement": "A run of the command line program obtains the same matrix elements whatever earlier or concurrent runs stored in the database of matrix elements.", "quantifier": "all histories of runs with any bases and calls, stopped anywhere, and two runs at the same time", "why_tests_cant": "all histories; the database survives the processes", "anchors": ["pairinteraction/MatrixElements.cpp: precalculate"]}
{"id": "C86", "title": "One-atom Hamiltonians of the legacy program", "statement": "For every step of a field scan the command line program diagonalises the Hamiltonian that the library builds for the same states and fields: energies - E.d - B.mu + diamagnetism, at the linearly interpolated fields and between the states of the energy window. The result of a step depends on the fields at this step only.", "quantifier": "all bases, energy windows, field scans and steps", "why_tests_cant": "all matrices and scans; the matrices are filled by chains of alternatives for the lower triangle", "anchors": ["pairinteraction/HamiltonianOne.cpp: configure, build, changeToSpherical", "pairinteraction/Hamiltonianmatrix.cpp: diagonalize, addEntries"]}
{"id": "C87", "title": "Interaction of two atoms in the legacy program", "statement": "At every distance the command line program uses the multipole interaction that the library builds along the z axis for the same pair states up to the same order, between the states it did not discard as unnecessary; it is real, symmetric, conserves the total magnetic quantum number and does not depend on what earlier runs left in the database of matrix elements. For equal species it commutes with the exchange of the atoms.", "quantifier": "all species, pair bases, necessary masks, orders, distances and database contents left by earlier runs", "why_tests_cant": "all pairs of states and all orders; both atoms share one database file", "anchors": ["pairinteraction/HamiltonianTwo.cpp: calculate", "pairinteraction/MatrixElements.cpp: precalculate, getMultipole"]}
{"id": "C88", "title": "Pair Hamiltonian of two atoms in the legacy program", "statement": "For two atoms the command line program diagonalises the projection of H1 x 1 + 1 x H2 + V on the products of one-atom eigenvectors whose energy is within the cutoff and whose total magnetic quantum number is the one of the block; leaving out the states it calls unnecessary takes nothing away, and without cutoff and symmetries the eigenvalues are exactly those of the full pair Hamiltonian.", "quantifier": "all one-atom Hamiltonians with orthonormal eigenvectors, cutoffs, total momenta, exponents, distances and numbers of steps", "why_tests_cant": "all matrices and all cutoffs", "anchors": ["pairinteraction/Hamiltonianmatrix.cpp: combine, energycutoff, changeBasis, removeUnnecessaryBasisvectors", "pairinteraction/HamiltonianTwo.cpp: calculate"]}
{"id": "C89", "title": "Symmetry blocks of equal atoms in the legacy program", "statement": "If both parities of inversion, of permutation or of both are requested for two atoms of the same species, with or without conservation of the total magnetic quantum number, and no block is left out, the blocks together have exactly the eigenvalues, with multiplicities, of the matrix without symmetries, once the database holds the matrix elements of the pair basis. Inversion presumes no electric field, conservation of the momentum fields along z, permutation dipole-dipole interaction, as the user interface sets them.", "quantifier": "all bases, eigenvectors, cutoffs, distances, steps, database contents left by earlier runs and combinations of these symmetries", "why_tests_cant": "all eigenvectors and all earlier histories", "anchors": ["pairinteraction/HamiltonianTwo.cpp: calculate", "pairinteraction/Hamiltonianmatrix.cpp: combine"]}
{"id": "C90", "title": "Leaving out blocks without the initial state in the legacy program", "statement": "When the program is asked to calculate only the sector of the initial pair state, no vector of a symmetry block that it leaves out overlaps with the initial state, along z or along any other axis, and the blocks that it does calculate are the same matrices as without this restriction.", "quantifier": "all bases, eigenvectors, cutoffs, initial states, directions of the axis and combinations of inversion, permutation and rotation", "why_tests_cant": "all vectors and all initial states", "anchors": ["pairinteraction/HamiltonianTwo.cpp: calculate", "pairinteraction/Hamiltonianmatrix.cpp: combine"]}
{"id": "C91", "title": "Reflection blocks of the legacy pair calculation", "statement": "When the program is asked for both parities under reflection, alone or together with inversion, permutation and conservation of the momentum, the symmetry blocks together have exactly the energies of the calculation without symmetries, for every basis it can be given.", "quantifier": "all bases, species, eigenvectors of one-atom Hamiltonians that commute with the reflection, cutoffs, distances, exponents, momenta and databases that earlier runs left", "why_tests_cant": "all matrices and all selections of states", "anchors": ["pairinteraction/HamiltonianTwo.cpp: calculate", "pairinteraction/Hamiltonianmatrix.cpp: combine", "pairinteraction/HamiltonianOne.cpp: build"]}
{"id": "C92", "title": "Loaded dipole elements are the ones used", "statement": "After a file of reduced dipole elements has been loaded for a species, the electric dipole element returned between any two Zeeman states of the two levels of a row is the elementary charge times the value of the row times the Wigner-Eckart factor of the two states, whatever was looked up, precalculated, loaded or serialized before or after; the loaded values never get into the database file.", "quantifier": "all files, rows, Zeeman states, histories before and after, contents of the database", "why_tests_cant": "all histories and files", "anchors": ["pairinteraction/MatrixElementCache.cpp: loadElectricDipoleDB, getElectricDipole, update"]}
{"id": "C93", "title": "The parallel loops of the legacy program do not depend on the schedule", "statement": "However the threads of the loop over fields or distances are scheduled, and whatever runs killed at whatever point came before, no iteration of the loop throws, every iteration that finishes has the matrix of its own configuration, the cache then holds this matrix for this configuration, and every iteration that is given enough time finishes.", "quantifier": "all numbers of iterations, schedules, histories of runs, points of death, configurations", "why_tests_cant": "all schedules, crash points and histories", "anchors": ["pairinteraction/HamiltonianOne.cpp: build (parallel loop, lines 462-647)", "pairinteraction/HamiltonianTwo.cpp: calculateMatrices (parallel loop, lines 690-884)"]}
{"id": "C94", "title": "The Hamiltonian of a combined system", "statement": "add() refuses systems whose settings or flags differ, without damage to them. The combined system has, after any further history of setters, builds and diagonalizations, the Hamiltonian of a fresh system with the basis vectors of both and the current settings, whatever was done with the two systems before they were combined; the symmetries it records hold for all of its basis vectors.", "quantifier": "all pairs of systems, all histories before and after", "why_tests_cant": "unbounded histories of three objects", "anchors": ["pairinteraction/SystemBase.cpp: add", "pairinteraction/SystemOne.cpp: incorporate", "pairinteraction/SystemTwo.cpp: incorporate"]}
{"id": "C95", "title": "The command line program does what its options and configuration say", "statement": "Whatever the arguments are, the program calculates exactly if they are complete options; it leaves with success for help and with failure otherwise. For every configuration it computes exactly the one-atom and pair Hamiltonians the configuration asks for, refuses a common basis for different species, and never uses a Hamiltonian that was not constructed.", "quantifier": "all argument lists and all configurations", "why_tests_cant": "unboundedly many argument lists and configurations", "anchors": ["pairinteraction/main.cpp: main", "pairinteraction/Interface.cpp: compute, mainMatrix"]}
{"id": "C96", "title": "Steps of a scan", "statement": "A scan with n steps computes n pair Hamiltonians per symmetry (one if nothing changes); step k uses the one-atom Hamiltonians at the fields of the fraction k/(n-1) and the distance at the same fraction; the first step is the start and the last the end of the scan. No index is outside of a vector.", "quantifier": "all scans and numbers of steps", "why_tests_cant": "unbounded number of steps; an index error shows for some combination of constant and changing quantities only", "anchors": ["pairinteraction/HamiltonianOne.cpp: build", "pairinteraction/HamiltonianTwo.cpp: calculate"]}
{"id": "C97", "title": "Restricting the one-atom states of a pair calculation", "statement": "Before a pair calculation, each atom keeps exactly the states within the given distances of its initial state, in order and with matching rows in all Hamiltonians of the scan; the pair Hamiltonian is the one of the kept states.", "quantifier": "all states, distances, Hamiltonians, symmetries, energy cutoffs", "why_tests_cant": "all bases and eigenvectors; whether the result is a spectrum of anything depends on the eigenvectors", "anchors": ["pairinteraction/HamiltonianTwo.cpp: calculate", "pairinteraction/Hamiltonianmatrix.cpp: removeUnnecessaryStates", "pairinteraction/Hamiltonian.hpp: removeUnnecessaryStates"]}
{"id": "C98", "title": "Failed and repeated calls on a one-atom system", "statement": "Of every kind of setting the last call before the first getter counts; a getter that succeeds leaves a complete basis, and getting again changes nothing. A call that throws leaves the object as it was or in a state from which it can be used again after everything is specified anew; a refused symmetry is not used; a failed getter does not drop restrictions.", "quantifier": "all histories of restrictions, symmetries, user-defined states and getters", "why_tests_cant": "unbounded histories; what a failed call leaves behind shows only in later calls", "anchors": ["pairinteraction/SystemBase.cpp: buildBasis, forgetRestrictions, updateEverything, onSymmetryChange", "pairinteraction/SystemOne.cpp: initializeBasis, setConservedParityUnderReflection, setConservedMomentaUnderRotation"]}
{"id": "C99", "title": "Diagonalization in an energy window", "statement": "diagonalize with two energies replaces the basis vectors by orthonormal eigenvectors of the represented operator, exactly those with energies in the window; enough space is reserved for them; if it throws, the system can still be used.", "quantifier": "all Hermitian Hamiltonians, windows and orthonormal bases", "why_tests_cant": "all matrices; the estimate of the number of eigenvalues is wrong for some couplings only", "anchors": ["pairinteraction/SystemBase.cpp: diagonalize(double, double), diagonalize(double, double, double), checkIsDiagonal"]}
{"id": "C100", "title": "The pair basis consists of the chosen products of one-atom basis vectors", "statement": "Without symmetries the pair basis has one vector for every pair of one-atom basis vectors, or for every pair chosen by setOneAtomBasisvectors, whose summed energy is inside the window, in this order, with the products of the coefficients; complete one-atom bases give a complete orthonormal basis. A selection that names a pair twice is refused and changes nothing; of several the last one counts; the numbers are those of the one-atom systems; a chosen pair is never dropped silently.", "quantifier": "all one-atom systems, selections, energy windows, ranges and histories of calls", "why_tests_cant": "unbounded systems and histories", "anchors": ["pairinteraction/SystemTwo.cpp: initializeBasis, setOneAtomBasisvectors", "pairinteraction/SystemBase.cpp: buildBasis, restrictEnergy, forgetRestrictions"]}
{"id": "C101", "title": "Unitarizing replaces each basis vector by one artificial state", "statement": "unitarize succeeds if and only if the labels of the basis vectors are pairwise distinct; then the states are numbered artificial states, pairwise distinct, the i-th labelled by the hash of the i-th old basis vector, the basis vectors are the unit vectors and the Hamiltonian is unchanged. The same vector always gets the same label and different vectors get different labels; a call that throws leaves the system as it was.", "quantifier": "all one-atom and two-atom systems, all basis vectors and all hash functions of states, rows and coefficients", "why_tests_cant": "unbounded systems, all hash functions", "anchors": ["pairinteraction/SystemBase.cpp: unitarize, createStateFromLabel", "pairinteraction/utils.hpp: hash_combine, hash_range"]}
{"id": "C102", "title": "The key of a stored matrix determines the matrix", "statement": "If two runs of the old programs store a matrix under equal configurations, the two matrices are equal, whatever else differs between the runs: the scanned intervals, the number of steps, the order of the two start states, the other symmetry blocks, the contents of the databases.", "quantifier": "all pairs of configurations, atoms, fields, distances, steps, symmetry blocks and database contents", "why_tests_cant": "unbounded pairs of runs", "anchors": ["pairinteraction/HamiltonianOne.cpp: build", "pairinteraction/HamiltonianTwo.cpp: calculate", "pairinteraction/Basisnames.hpp: configure", "pairinteraction/Basisnames.cpp: build"]}
{"id": "C103", "title": "Looking up states by quantum numbers and by index", "statement": "getStateIndex of a state that getStates lists returns its position in that list, and throws for every other state; the version for lists does the same for each entry. getOverlap by indices returns, for each basis vector, the sum of its squared coefficients at these positions, and getOverlap by states equals getOverlap at the positions of those states, where a state with wildcards stands for all states that agree with it elsewhere. getStatesFirst and getStatesSecond return every state of the first and the second atom exactly once.", "quantifier": "all systems reached by any sequence of calls, all queried states, all lists of indices", "why_tests_cant": "unbounded histories of the system and unbounded bases", "anchors": ["pairinteraction/SystemBase.cpp: getStateIndex", "pairinteraction/SystemBase.cpp: getOverlap", "pairinteraction/SystemBase.cpp: getStates", "pairinteraction/SystemTwo.cpp: getStatesFirst", "pairinteraction/SystemTwo.cpp: getStatesSecond"]}
{"id": "C104", "title": "The conserved quantities of a pair system", "statement": "For each conserved quantity of a pair system the last accepted call of its setter counts; a refused call changes nothing. After the basis exists, every setter is refused. A set of momenta that is not symmetric cannot be combined with a reflection parity. The basis that a getter builds has exactly the parities and momenta that were set.", "quantifier": "all sequences of setter and getter calls, all one-atom systems, all sets of momenta", "why_tests_cant": "unbounded histories", "anchors": ["pairinteraction/SystemTwo.cpp: setConservedParityUnderPermutation", "pairinteraction/SystemTwo.cpp: setConservedParityUnderInversion", "pairinteraction/SystemTwo.cpp: setConservedParityUnderReflection", "pairinteraction/SystemTwo.cpp: setConservedMomentaUnderRotation", "pairinteraction/SystemBase.cpp: onSymmetryChange"]}
{"id": "C105", "title": "Precalculation is enough", "statement": "After one of the precalculation methods and update have run for a basis, every matrix element of that kind between two states of the basis that the selection rules allow is found in the cache: the lookup returns a value without calculating anything, and neither the cache nor the database file changes.", "quantifier": "all caches and database files in any state, all bases, all orders and polarisations, all pairs of states", "why_tests_cant": "unbounded bases and cache contents", "anchors": ["pairinteraction/MatrixElementCache.cpp: precalculate", "pairinteraction/MatrixElementCache.cpp: precalculateMultipole, precalculateRadial, precalculateElectricMomentum, precalculateMagneticMomentum, precalculateDiamagnetism", "pairinteraction/MatrixElementCache.cpp: update"]}
{"id": "C106", "title": "User-defined states of a pair system", "statement": "A pair state added by the user is refused if it is of the wrong species, already in the basis, or lacks the exchanged state that the chosen symmetries need; otherwise it belongs to the basis: the basis is the one without user-defined states followed by one vector per added state (one per exchanged pair of states if a symmetry exchanges the atoms) that has the chosen symmetries, with the sum of the one-atom energies as energy.", "quantifier": "all one-atom systems, symmetries, windows, selections and lists of added states", "why_tests_cant": "unbounded systems and lists of states", "anchors": ["pairinteraction/SystemTwo.cpp: initializeBasis, addBasisvectors", "pairinteraction/SystemBase.cpp: addStates"]}
{"id": "C107", "title": "What is saved is the current matrix", "statement": "A Hamiltonian matrix object saved to a file and loaded again (by any object, at any later time before the file is written again) gives the matrix the object had when it was saved, whatever calls built, changed, copied, serialized or loaded it before; a failed load and a serialization change no matrix; a matrix built by addBasis, addEntries and compress holds exactly the sums of the added values.", "quantifier": "all histories of calls on any number of objects and files", "why_tests_cant": "unbounded histories", "anchors": ["pairinteraction/Hamiltonianmatrix.cpp: compress, entries, basis, diagonalize, doSerialization, doDeserialization, save, load, operator+, operator+=", "pairinteraction/HamiltonianOne.cpp: build", "pairinteraction/HamiltonianTwo.cpp: HamiltonianTwo"]}
{"id": "C108", "title": "Rotations given by two axes", "statement": "For every pair of orthogonal non-zero axes, rotate(to_z_axis, to_y_axis), getOverlap(..., to_z_axis, to_y_axis) and setEfield/setBfield(field, to_z_axis, to_y_axis) use the same rotation, the one whose z and y axes are the normalised given ones; a rotated single-atom system is the system in the fields with the components along the axes, a rotated pair is the pair whose distance vector has the components along the axes (in particular rotating with the distance vector as z axis aligns the atoms with z), overlaps with rotated states are the overlaps with the basis rotated back (complex scalar type); axes that are not orthogonal are refused.", "quantifier": "all axes, all fields, all systems with complete Zeeman manifolds", "why_tests_cant": "continuum of inputs", "anchors": ["pairinteraction/SystemBase.cpp: rotate, getOverlap, buildRotator, getEulerAngles", "pairinteraction/SystemOne.cpp: rotateVector, setEfield, setBfield", "Eigen: eulerAngles(2, 1, 2)"]}
{"id": "C109", "title": "Symmetry sectors of a pair system", "statement": "For every pair system of two like atoms with complete one-atom bases, the systems built with even and with odd conserved parity under permutation (or inversion) have together exactly the eigenvalues, with multiplicities, of the system built without the symmetry; so have the systems built with each conserved momentum under rotation, and the systems built with even and odd parity under reflection.", "quantifier": "all one-atom bases, energies and fields, all distance vectors, all multipole orders, all accuracies below 1/4", "why_tests_cant": "continuum of inputs, unbounded matrix sizes", "anchors": ["pairinteraction/SystemTwo.cpp: initializeBasis, initializeInteraction, addInteraction, setConservedParityUnderPermutation, setConservedParityUnderInversion", "pairinteraction/SystemBase.cpp: buildHamiltonian"]}
{"id": "C110", "title": "The tabulated radial functions solve the radial Schr\u00f6dinger equation", "statement": "Numerov(qd).integrate() tabulates X(x) = u(x\u00b2)/\u221ax where u solves the radial Schr\u00f6dinger equation with the model potential of qd: the equation integrated is equivalent to the Schr\u00f6dinger equation, the table deviates from an exact solution by at most an explicit bound of order dx\u2074 (dx\u2076 per step), the potential is \u22121/r far outside and \u2212Z/r at the nucleus, the grid covers the classically allowed region, and the radial integrals weight the samples by r^p dr. Whittaker(qd).integrate() tabulates, with the same sign convention, a solution for the Coulomb potential at the energy \u22121/(2\u03bd\u00b2), normalised for circular states.", "quantifier": "all quantum numbers, potential parameters, energies, exact solutions, powers and grid points", "why_tests_cant": "A test compares a few states with stored numbers; that the right equation is integrated, and with which error, concerns every state and every solution.", "anchors": ["pairinteraction/Wavefunction.cpp model_potential::V, model_potential::g, Numerov::Numerov, Numerov::integrate, WhittakerW, RadialWFWhittaker, Whittaker::integrate", "pairinteraction/Wavefunction.hpp power_kernel, IntegrateRadialElement"]}
{"id": "C111", "title": "Symmetries of the spectrum", "statement": "The energies that a SystemOne returns, with their multiplicities, do not change when the electric field is reversed (no ion), when the magnetic field is reversed (basis with m and -m), or when the y components of both fields are reversed; without a magnetic field and with half-integer spin every energy is (at least) twofold degenerate (Kramers), whatever the electric field and the ion. The energies of a SystemTwo are the same at the distance vectors R, -R and their mirror images at the xz-plane.", "quantifier": "all sets of physical states (for time reversal: closed under m -> -m), all fields, ion charges, distances and orders, all radial elements, all histories of setters, builds and diagonalizations; all pair states and distance vectors, dipole-dipole and dipole-quadrupole interaction", "why_tests_cant": "a test compares the energies of one basis at a few field values, where a sign error in one component can cancel", "anchors": ["pairinteraction/SystemOne.cpp: initializeInteraction, addInteraction, changeToSphericalbasis", "pairinteraction/MatrixElementCache.cpp: getElectricMultipole, getMagneticDipole", "pairinteraction/SystemTwo.cpp: initializeInteraction, addInteraction"]}
{"id": "C112", "title": "Printed states identify the state", "statement": "str() of a physical state with non-negative l is defined, and two physical states have the same string exactly when they compare equal (as long as no quantum number is a negative zero); the string of a pair state identifies both atoms when no species name contains '|'.", "quantifier": "all species names, all n, all l >= 0, all integer and half-integer j and m below 50000 (the wildcard ARB included), pairs of such states", "why_tests_cant": "a test prints a few states; that no two different states share a string is a statement about all pairs of states", "anchors": ["pairinteraction/State.cpp: operator<<, StateOne::str, StateTwo::str, getMomentumLabel, getReflected"]}
{"id": "C113", "title": "A busy database is waited for, by a handler that outlives every move of the handle", "statement": "While another process holds the lock of the database, an operation is repeated with random pauses of 2 to 20 ms; it fails with SQLITE_BUSY only after 100000 pauses, i.e. never within 200 s, it succeeds when the lock is released for good within that time, and it never waits longer than 2000 s of pauses. In every history of opening, moving, assigning and destroying handle objects, each open connection has exactly one owner, its busy handler points to that live object, and each connection is closed exactly once.", "quantifier": "all schedules of the lock, all random draws, all wake-up delays; all histories of handle operations", "why_tests_cant": "tests do not hold a lock for minutes, and cannot go through all schedules or all sequences of moves", "anchors": ["pairinteraction/SQLite.hpp: sqlite::handle::busy_handler, install_busy_handler, constructors, operator=", "pairinteraction/utils.hpp: randint"]}
{"id": "C114", "title": "Levels when the basis is enlarged", "statement": "A system whose states and basis vectors contain those of another one (larger ranges of quantum numbers, wider energy window, all symmetry sectors instead of one), with the same settings, has up to every energy at least as many levels, and at most as many more as it has more basis vectors. With energies in ascending order: enlarging the basis never raises the i-th energy (d_i <= e_i <= d_(i+N-M)).", "quantifier": "all bases, all fields, ion and pair settings, all histories of setters, builds and diagonalizations of both systems, all eigenvectors the solver may return, all energies", "why_tests_cant": "convergence tests compare a few basis sizes; that no setting and no basis lets a level rise when states are added is a statement about all of them", "anchors": ["pairinteraction/SystemBase.cpp: buildHamiltonian, diagonalize, onParameterChange", "pairinteraction/SystemOne.cpp: initializeInteraction, addInteraction", "pairinteraction/SystemTwo.cpp: initializeInteraction, addInteraction"]}
{"id": "C115", "title": "Levels move no faster than the settings", "statement": "When the fields or the distance of a system are changed, the i-th energy (ascending order) moves at most by |E'-E| times a bound of the dipole operators, |B'-B| times a bound of the magnetic moment, 3(|B'|+|B|)|B'-B| times a bound of the diamagnetic operators, respectively by the sum over the orders of |1/R'^o - 1/R^o| times a bound of the multipole operator, independent of the histories that led to the two settings; at large distance the energies approach those without interaction. The tolerance 1e-24 below which field components are ignored adds at most 2e-24 (4e-24) times the bound.", "quantifier": "all bases, all pairs of field vectors, all accepted pairs of pair settings, all histories, all eigenvectors the solver may return", "why_tests_cant": "tests look at a few steps of a sweep; absence of jumps for all parameters and all bases is a continuity statement", "anchors": ["pairinteraction/SystemOne.cpp: addInteraction, setEfield, setBfield", "pairinteraction/SystemTwo.cpp: addInteraction, setDistance", "pairinteraction/SystemBase.cpp: buildHamiltonian, diagonalize"]}
{"id": "C116", "title": "Line strengths do not depend on sublevel or polarization", "statement": "For two levels of one species and a multipole operator of rank kappa there is one number S, the square of the reduced element, so that the squares of the elements returned for their Zeeman sublevels add up to S/(2j+1) over the sublevels of the second level for every sublevel of the first, to S/(2j'+1) the other way round, and to S/(2kappa+1) over all pairs for every polarization q; the same holds for magnetic dipole elements. No element exceeds the smaller of these values. The squares of the 3j symbols of three momenta that can be coupled add up to one.", "quantifier": "all pairs of levels, all sublevels, all polarizations, all multipole orders, all radial elements, both methods", "why_tests_cant": "a sum rule over all quantum numbers: tests compare tables of a few symbols", "anchors": ["pairinteraction/MatrixElementCache.cpp: getElectricMultipole, getMagneticDipole, update"]}
{"id": "C117", "title": "The magnetic moment of a level is that of the Land\u00e9 factor", "statement": "Between sublevels of one level nlj the magnetic dipole elements returned are those of -mu_B g_J J_q (all three components), times the overlap of the radial wavefunction with itself, with g_J = g_L [j(j+1)+l(l+1)-s(s+1)]/[2j(j+1)] + g_S [j(j+1)+s(s+1)-l(l+1)]/[2j(j+1)], for every spin. A SystemOne whose basis is one level has in a field along z the energies E + mu_B g_J m B and does not mix sublevels; the reported elements and the sign of the interaction agree with the textbook Zeeman effect.", "quantifier": "all levels nlj with every l, j, spin s; all pairs of projections; all field strengths; both radial methods", "why_tests_cant": "a closed formula for infinitely many levels whose ingredients (3j and 6j symbols, phases, cached in sorted order) are computed separately", "anchors": ["pairinteraction/MatrixElementCache.cpp: getMagneticDipole, update", "pairinteraction/SystemOne.cpp: addInteraction, initializeInteraction"]}
{"id": "C118", "title": "Electric operators act on the position only, the magnetic moment is that of orbit and spin", "statement": "Write the states |(l s) j m> with Clebsch-Gordan coefficients as sums over orbital and spin projections. The electric multipole elements returned are then those of e r^k C^kappa_q acting on the position alone: the radial integral times the Gaunt integral between spherical harmonics, with the spin projection unchanged. The magnetic dipole elements returned, also between different fine-structure levels, are those of -mu_B (g_L L + g_S S), with L acting on the orbital projection alone and S on the spin projection alone.", "quantifier": "all pairs of states of one species and spin (singlets, alkali atoms and triplets), every n, l, j, m; all multipole orders and components; both radial methods", "why_tests_cant": "an identity between sums of products of three 3j symbols and a 6j symbol for infinitely many quantum numbers; the code never forms the uncoupled basis, and its phase conventions, cached in sorted order, have to match those of the textbook operators", "anchors": ["pairinteraction/MatrixElementCache.cpp: getElectricMultipole, getElectricDipole, getMagneticDipole, update"]}
{"id": "C119", "title": "Complete fine-structure multiplets: nothing is lost or counted twice", "statement": "A fine-structure multiplet (fixed n, l and spin, all j and m) written with the Clebsch-Gordan coefficients built from the library's symbols is an orthonormal, complete set of product states |l mu>|s sigma>. Hence: (1) the squares of the electric multipole elements returned between one state and all members of a multiplet with one radial integral R add up to (e R)^2 (2 l2+1) (l1 kappa l2; 0 0 0)^2, whatever j, m and the spin; for the dipole the fraction (l+1)/(2l+1) goes to l+1, l/(2l+1) to l-1, nothing elsewhere; (2) the product states diagonalize the matrix of the magnetic moment returned for the whole multiplet, with eigenvalues -mu_B R (g_L mu + g_S sigma) (Paschen-Back limit).", "quantifier": "every spin, all l, j, m, all multipole orders, every atom; both radial methods; members of the multiplet that share one radial integral (as with quantum defects that do not depend on j)", "why_tests_cant": "sums over whole multiplets for infinitely many l; each element comes from separately cached, sign-adjusted factors, and only their sum is fixed", "anchors": ["pairinteraction/MatrixElementCache.cpp: getElectricMultipole, getElectricDipole, getMagneticDipole, update"]}
{"id": "C120", "title": "Centre of gravity of the levels", "statement": "The energies of a diagonalized system add up to the sum of the energies without interaction plus the factors of the operators times their traces on the space of the basis vectors, after every history of setters, builds and diagonalizations. For one atom whose basis contains all Zeeman levels of its states the electric field, the linear Zeeman effect and an ion at any order do not move the sum; the diamagnetic interaction moves it by B^2 e^2/(12 m) times the sum of the radial integrals of r^2. In an electric field alone the sum stays for every selection of states when no basis vector mixes states of different parity. For two atoms the sum does not depend on distance, angle, surface or order when the basis contains all combinations of Zeeman levels; up to order 4 it does so for every selection of states when no basis vector mixes states of different parity of an atom.", "quantifier": "all basis states, fields, distances, orders, energies and all histories of the system", "why_tests_cant": "A test diagonalizes a few systems and compares single levels; that the sum is fixed for every basis, field and history is a statement about sums of 3j symbols over all Zeeman levels.", "anchors": ["pairinteraction/SystemOne.cpp: initializeInteraction, addInteraction", "pairinteraction/SystemTwo.cpp: initializeInteraction, addInteraction", "pairinteraction/SystemBase.cpp: buildHamiltonian, diagonalize", "pairinteraction/MatrixElementCache.cpp: getElectricMultipole, getDiamagnetism, getMagneticDipole"]}
{"id": "C121", "title": "An interaction without first-order shift spreads the levels", "statement": "Let the basis vectors of a system have definite parity (the unperturbed states always have). After any history of calls, with an electric field alone (one atom) or the interaction of two atoms up to order 4 (any distance vector, angle or surface): for every selection S of basis vectors the |S| lowest energies add up to at most the energies of S without interaction and the |S| highest to at least those; in particular the ground state can only fall. The sum of the squared energies grows exactly by the sum of the squared couplings, hence by F*E_z^2 in a field along z and by F/R^6 for the dipole-dipole interaction along z, with a constant F that depends neither on the field or distance nor on the history.", "quantifier": "all bases of definite parity, fields, distances, unperturbed energies and histories; every unitary diagonalization", "why_tests_cant": "A test compares a few spectra with stored numbers; the statement relates spectra of all settings to one constant and bounds every partial sum of energies.", "anchors": ["pairinteraction/SystemOne.cpp: initializeInteraction, addInteraction", "pairinteraction/SystemTwo.cpp: initializeInteraction, addInteraction", "pairinteraction/SystemBase.cpp: buildHamiltonian, diagonalize"]}
{"id": "C122", "title": "The C6 coefficient is the van der Waals shift of the pair level", "statement": "PerturbativeInteraction::getC6 and SystemTwo agree. For a pair of atoms on the z axis with the dipole-dipole interaction (order 3) and a pair state without degenerate partners, in a basis that contains the virtual states: beyond some distance R0 the energy with the same number in the sorted spectrum of SystemTwo is E(a)+E(b)+C6/R^6 up to K/R^9, where C6 is the number getC6 returns (angle 0, same deltaN); K and R0 depend neither on the distance nor on the history of calls. For a degenerate level the same holds with the eigenvalues of the effective operator of second order. In a weak electric field along z the level of one atom follows E(a) - alpha/2 * E_z^2 with the second-order sum over the other states.", "quantifier": "all bases that contain the states of the sum, unperturbed energies, matrix elements, distances above R0 and histories of calls; every unitary diagonalization with sorted energies", "why_tests_cant": "A test compares the two numbers for a few states and one distance with a tolerance; the statement bounds the difference at all large distances.", "anchors": ["pairinteraction/PerturbativeInteraction.cpp: getC6", "pairinteraction/SystemTwo.cpp: initializeInteraction, addInteraction", "pairinteraction/SystemOne.cpp: initializeInteraction, addInteraction", "pairinteraction/SystemBase.cpp: buildHamiltonian, diagonalize"]}
{"id": "C123", "title": "The eigenvalues of the C6 matrix are the van der Waals shifts of a degenerate level", "statement": "Let a list of pair states contain all pair states of one energy E0 (for example the Zeeman states of a pair of levels). The matrix that PerturbativeInteraction::getC6 returns for the list is the effective operator of second order of SystemTwo's dipole-dipole interaction within the level; beyond some distance R0 the energies of the numbers of the level in SystemTwo's sorted spectrum are E0 + (sorted eigenvalues of the matrix)/R^6 up to K/R^9, each with its multiplicity. K and R0 depend neither on the distance nor on the history of calls.", "quantifier": "all bases that contain the virtual states, all degenerate levels within one shell per atom (any j and m), unperturbed energies, radial elements, distances above R0 and histories; every unitary diagonalization of both matrices with sorted eigenvalues", "why_tests_cant": "A test compares a few eigenvalues for one distance with a tolerance; the statement bounds all differences at all large distances and covers degenerate eigenvalues.", "anchors": ["pairinteraction/PerturbativeInteraction.cpp: getC6 (matrix)", "pairinteraction/SystemTwo.cpp: initializeInteraction, addInteraction", "pairinteraction/SystemBase.cpp: buildHamiltonian, diagonalize"]}
{"id": "C124", "title": "The C6 coefficients for an angle are the van der Waals shifts of a tilted pair", "statement": "Let the distance vector have the angle theta to the quantization axis (as set by setAngle or a distance vector in the xz-plane). For a pair state without degenerate partners, the number that PerturbativeInteraction(theta)::getC6 returns divided by R^6 is the shift of its energy in SystemTwo's spectrum up to K/R^9; for a level of pair states of one shell the shifts of the energies of the level are the sorted eigenvalues of the matrix getC6(theta) divided by R^6, each with its multiplicity. K and R0 depend on the angle but neither on the distance nor on the history of calls.", "quantifier": "all angles except 0 and pi whose angle factors are zero or above the tolerance, all bases that contain the virtual states, unperturbed energies, radial elements, distances above R0 and histories; every diagonalization with sorted eigenvalues", "why_tests_cant": "A test compares numbers for a few angles; the two classes compute the angle dependence by different formulas (nine terms with signs, six operators with merged keys), and the agreement must hold for every angle and state.", "anchors": ["pairinteraction/PerturbativeInteraction.cpp: getC6, initializeAngleTerms", "pairinteraction/SystemTwo.cpp: initializeInteraction, addInteraction", "pairinteraction/SystemTwo.cpp: setAngle"]}
{"id": "C125", "title": "The eigenvalues of the C3 matrix are the resonant dipole-dipole shifts", "statement": "For pair states of one energy (a Foerster resonance) and any angle theta between the distance vector and the quantization axis, the energies of the level in SystemTwo's spectrum are E0 plus the sorted eigenvalues of the matrix PerturbativeInteraction(theta)::getC3 divided by R^3, each with its multiplicity, up to K/R^6 with K and R0 independent of the distance, the angle and the history of calls. Two degenerate states a, b split by 2|getC3|/R^3. If the basis of the system consists of the listed states only, the energies are exactly the eigenvalues of getEnergy + getC3/R^3.", "quantifier": "all bases, pair states of any species, shell and spin, unperturbed energies, radial elements, levels of any size, angle 0 and all other angles whose angle factors are zero or above the tolerance, distances above R0 and histories; every diagonalization with sorted eigenvalues", "why_tests_cant": "A test compares numbers for a few states; that two classes with different formulas (direct sum over the angle table, merged sparse operators) give the same matrix and the same splitting must hold for every list of states, angle and distance.", "anchors": ["pairinteraction/PerturbativeInteraction.cpp: getC3, getEnergy, initializeAngleTerms", "pairinteraction/SystemTwo.cpp: initializeInteraction, addInteraction", "pairinteraction/SystemBase.cpp: buildHamiltonian, diagonalize"]}
{"id": "C126", "title": "Levels in weak fields: Lande factor, no linear Stark effect", "statement": "In electric fields of any direction and magnetic fields of strength together at most F, with or without diamagnetism, the energies of a fine-structure level in SystemOne's sorted spectrum are E0 + mu_B g_J m B (times the overlap of the radial function with itself), in the order of these shifts, up to K (F^2 + 1e-23) with K independent of the fields and the history of calls: g_J is the Lande factor of the level, the direction of the magnetic field does not matter if the basis contains all sublevels, and electric fields alone do not shift the level in first order.", "quantifier": "all bases of physical states of one species and spin, unperturbed energies (with degeneracies elsewhere), radial elements, constants g_L, g_S, mu_B, levels, electric field directions, magnetic field directions (along z for bases without all sublevels), field strengths below a bound, diamagnetism on or off, histories; every diagonalization with sorted eigenvalues", "why_tests_cant": "A test measures slopes at a few field strengths for a few states; the bound of the rest and the assignment of the sublevels to the sorted energies must hold for every level, basis, field and history.", "anchors": ["pairinteraction/SystemOne.cpp: initializeInteraction, addInteraction", "pairinteraction/MatrixElementCache.cpp: getMagneticDipole, getElectricDipole", "pairinteraction/SystemBase.cpp: buildHamiltonian, diagonalize"]}
{"id": "C127", "title": "Quadratic Stark shift of a fine-structure level", "statement": "Without a magnetic field, in electric fields of any direction and strength F at most F0, the energies of a fine-structure level in SystemOne's sorted spectrum are E0 + F^2 times the second-order sums over the other states of |<d|p_z|m>|^2/(E0 - E_d), in the order of these sums, up to K (F^3 + 1e-23), with K and F0 independent of the field and the history of calls; the sublevels m and -m have the same sum, and a sublevel is lowered if all states of equal m and opposite parity lie above it.", "quantifier": "all bases of physical states of one species and spin with all sublevels of every level, unperturbed energies equal within a level, radial elements, levels, electric field directions, field strengths below a bound, histories; every diagonalization with sorted eigenvalues", "why_tests_cant": "A test fits a polarizability to a few field strengths for one state; the bound of the rest, the independence of the direction and the assignment to the sorted energies must hold for every level, basis, field and history.", "anchors": ["pairinteraction/SystemOne.cpp: initializeInteraction, addInteraction", "pairinteraction/MatrixElementCache.cpp: getElectricDipole", "pairinteraction/SystemBase.cpp: buildHamiltonian, diagonalize"]}
{"id": "C128", "title": "Degenerate levels in weak fields: linear Stark effect", "statement": "For any level of SystemOne, also with accidental degeneracies, and electric and magnetic fields of any directions and of strength together at most F, with or without diamagnetism, the energies of the level in the sorted spectrum are E0 plus the sorted eigenvalues of the matrix of -E.d - B.mu between the states of the level, up to K (F^2 + 1e-23) with K independent of the fields and the history; two degenerate states of opposite parity and equal m split in a field F along z by 2 F |<i|d_z|j>|, half of it up and half down.", "quantifier": "all bases of physical states of one species and spin, unperturbed energies, radial elements, levels of any degeneracy, field directions and strengths below a bound, diamagnetism on or off, histories; every diagonalization with sorted eigenvalues", "why_tests_cant": "A test compares a Stark map of one manifold at a few field strengths; the assignment to the sorted energies and the bound of the rest must hold for every level, field and history.", "anchors": ["pairinteraction/SystemOne.cpp: initializeInteraction, addInteraction", "pairinteraction/MatrixElementCache.cpp: getElectricDipole, getMagneticDipole", "pairinteraction/SystemBase.cpp: buildHamiltonian, diagonalize"]}
