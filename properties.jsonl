{"id": "C01", "title": "Symmetry operations compose like the group they represent", "statement": "For atoms in a Bravais, Chiral, Wedge, WedgeYAxis, ChiralWedge or ChiralGeneral container, atoms.transform(r,(0,0,0)) returns r, and atoms.transform(atoms.transform(r,n),m) equals atoms.transform(r,n+m) whenever the three operations are accepted; in particular n and -n undo each other and the order of two operations is irrelevant.", "quantifier": "every container parameter value, every point r, all integer triples n and m that the container accepts", "why_tests_cant": "infinitely many angles, cells, points and operation pairs; a test samples a few", "anchors": ["hotbit/atoms.py:Atoms.transform", "hotbit/containers/bravais.py:Bravais.transform", "hotbit/containers/chiral.py:Chiral.transform", "hotbit/containers/wedge.py:Wedge.transform", "hotbit/containers/wedgeyaxis.py:WedgeYAxis.transform", "hotbit/containers/chiralwedge.py:ChiralWedge.transform", "hotbit/containers/chiralgeneral.py:ChiralGeneral.transform"]}
{"id": "C02", "title": "Every symmetry operation is a rigid motion with the advertised rotation part", "statement": "For every container except TwistAndTurn/Saddle/Gaussian, atoms.rotation(n) is an orthogonal 3x3 matrix and atoms.transform(r,n)-atoms.transform(s,n) equals rotation(n) applied to r-s; hence all interatomic distances are preserved. The determinant is +1 except for the reflecting operation of Slab, where it is -1. rotation(n) is a homomorphism in n for the commuting containers.", "quantifier": "every container state, points r and s, every accepted operation n", "why_tests_cant": "holds for a continuum of angles/cells/points; tests sample", "anchors": ["hotbit/containers/*.py:rotation", "hotbit/containers/*.py:transform", "hotbit/neighbors.py:get_neighbors", "hotbit/elements.py:Elements.rotation"]}
{"id": "C03", "title": "A physical wedge has exactly M distinct operations that represent every rotation once", "statement": "For Wedge, WedgeYAxis and ChiralWedge whose angle is 2*pi/M, the allowed range in the angular direction has exactly M members, contains the identity, yields pairwise different rotations, and every integer multiple of the angle acts like exactly one allowed operation.", "quantifier": "every integer M>=1 and every integer rotation count", "why_tests_cant": "unbounded M; parity-dependent boundary arithmetic", "anchors": ["hotbit/containers/wedge.py:Wedge.get_symmetry_operation_ranges", "hotbit/containers/wedgeyaxis.py:WedgeYAxis.get_symmetry_operation_ranges", "hotbit/containers/chiralwedge.py:ChiralWedge.get_symmetry_operation_ranges"]}
{"id": "C04", "title": "The declared 'equivalent' operation of DoubleChiral and Slab is the square of the glide operation", "statement": "For DoubleChiral (with 2x an integer, as set() enforces) performing operation (1,0,0) twice is the same as performing the operation advertised by get_table()[0]['equivalent'] (or the identity-by-2pi when x=0); for Slab with in-plane lattice vectors performing (0,0,1) twice equals the pure translation advertised in its table.", "quantifier": "all angles, heights, cells, all admissible x, all points", "why_tests_cant": "continuum of parameters", "anchors": ["hotbit/containers/doublechiral.py:DoubleChiral.transform", "hotbit/containers/doublechiral.py:DoubleChiral.get_table", "hotbit/containers/slab.py:Slab.transform", "hotbit/containers/slab.py:Slab._set_table"]}
{"id": "C05", "title": "Illegal symmetry operations are refused and legal ones never are", "statement": "atoms.transform(r,n) and atoms.rotation(n) raise ValueError if and only if some component of n lies outside the interval returned by get_symmetry_operation_ranges(); otherwise they return.", "quantifier": "every container state and every integer triple n", "why_tests_cant": "infinitely many operations and cells", "anchors": ["hotbit/atoms.py:Atoms._check_symmetry_operation", "hotbit/atoms.py:Atoms.transform", "hotbit/atoms.py:Atoms.rotation"]}
{"id": "C06", "title": "extended_copy returns exactly the requested images, in order, or refuses", "statement": "atoms.extended_copy(n) returns an object whose atoms are, operation after operation in lexicographic order, the images of the original atoms under the requested operations; it has (number of atoms)*(number of operations) atoms; it raises ValueError iff a requested operation is illegal; asking for the full count of a finite direction yields each allowed operation exactly once; asking for one copy, (1,1,1), returns the original atoms.", "quantifier": "every container state, atom list, and request (list of operations, 3-tuple of counts and/or ranges)", "why_tests_cant": "unbounded atom lists and requests", "anchors": ["hotbit/atoms.py:Atoms.extended_copy"]}
{"id": "C07", "title": "The container type survives being stored in the cell", "statement": "After an Atoms object with a non-Bravais container is created, reading the container type back from its cell (as is done for plain ase.Atoms) returns the same type; a cell whose [0,0] entry is not a multiple of the marker is read as Bravais.", "quantifier": "every container type and every cell", "why_tests_cant": "the decoding is over arbitrary real cell entries; boundary multiples (negative, beyond the list) are easy to miss", "anchors": ["hotbit/atoms.py:container_magic", "hotbit/elements.py:Elements._update_atoms"]}
{"id": "C08", "title": "Container parameters are independent read/write slots", "statement": "After set(key=value) the container's get(key) returns the value, all other parameters, the type marker and the remaining cell entries keep theirs; a set() that raises leaves the container unchanged.", "quantifier": "every container, key, value and prior cell", "why_tests_cant": "all cells and value sequences; failure atomicity needs every failing branch", "anchors": ["hotbit/containers/wedge.py:Wedge.set", "hotbit/containers/wedge.py:Wedge.get", "hotbit/containers/chiral.py:Chiral._set", "hotbit/containers/doublechiral.py:DoubleChiral._set", "hotbit/containers/chiralwedge.py:ChiralWedge._set", "hotbit/containers/chiralgeneral.py:ChiralGeneral._set"]}
{"id": "C09", "title": "Copying atoms preserves the container", "statement": "atoms.copy() has the same container type, parameters, periodicity and hence the same symmetry operations and ranges as the original.", "quantifier": "every Atoms object of every container type", "why_tests_cant": "depends on the interplay of constructors with arbitrary previous state", "anchors": ["hotbit/atoms.py:Atoms.copy", "hotbit/atoms.py:Atoms.__init__", "hotbit/containers/*.py:__init__"]}
{"id": "C10", "title": "k-point weights are a probability distribution over inversion classes", "statement": "setup_k_sampling with a mesh returns strictly positive weights summing to 1, each kept k-point's weight is (number of mesh points merged into it)/(total), and every mesh point equals plus or minus a kept k-point (within the tolerance); with an explicit list all weights equal 1/len.", "quantifier": "every mesh size triple >=1, every container table (including 'equivalent' shifts), every explicit non-empty list", "why_tests_cant": "unbounded mesh sizes; double counting occurs only for special arrangements", "anchors": ["hotbit/states.py:States.setup_k_sampling"]}
{"id": "C11", "title": "The automatic mesh is the Monkhorst-Pack mesh", "statement": "In infinite directions the n mesh coordinates are -pi+(2j+1)*pi/n, lie strictly inside (-pi,pi), are symmetric under inversion and contain 0 iff n is odd; in finite directions they are the multiples 2*pi*j/n, and if n divides the number M of operations every Bloch phase exp(i*k*M) equals 1.", "quantifier": "every n>=1 and M>=1", "why_tests_cant": "unbounded n", "anchors": ["hotbit/states.py:States.setup_k_sampling"]}
{"id": "C12", "title": "Impossible k-samplings are refused", "statement": "setup_k_sampling raises AssertionError for a zero count, AssertionError for tuple sampling beyond Gamma with zero electronic temperature, Warning for a count that does not divide a finite number of operations when physical sampling is required, and AssertionError when any returned k-point has a non-zero component along a non-periodic direction.", "quantifier": "every argument and container", "why_tests_cant": "all argument combinations", "anchors": ["hotbit/states.py:States.setup_k_sampling", "box/mix.py:divisors"]}
{"id": "C13", "title": "Occupations are physical", "statement": "For positive temperature every occupation number lies strictly between 0 and 2, higher energies never have larger occupations, equal energies get equal occupations and raising the chemical potential never lowers an occupation.", "quantifier": "every spectrum, temperature and chemical potential", "why_tests_cant": "continuum", "anchors": ["hotbit/occupations.py:Occupations.fermi", "hotbit/occupations.py:Occupations.get_fermi"]}
{"id": "C14", "title": "occupy() conserves the number of electrons or raises", "statement": "Whenever occupy(e) returns, the weighted sum of the returned occupations differs from the number of electrons by at most 1e-10; the chemical potential with exact electron count exists and is unique whenever 0<nel<2*norb*sum(wk); if the root search's bracket has a sign change a solution is inside it. A user expects occupy to succeed for all such nel.", "quantifier": "every spectrum, k-weights, temperature and electron count", "why_tests_cant": "continuum; failure only for special spectra", "anchors": ["hotbit/occupations.py:Occupations.occupy", "hotbit/occupations.py:Occupations.root_function"]}
{"id": "C15", "title": "The self-consistency loop only returns converged charges", "statement": "get_states returns after at most maxiter diagonalizations; in SCC mode it returns only if the mixer reported convergence in the last iteration, otherwise it raises; in non-SCC mode exactly one diagonalization is made.", "quantifier": "every mixer behaviour, every diagonalizer, every maxiter", "why_tests_cant": "quantifies over all histories of the iteration", "anchors": ["hotbit/solver.py:Solver.get_states"]}
{"id": "C16", "title": "Charge mixing conserves total charge", "statement": "If every input and output charge vector given to the Anderson or Pulay mixer has the same total, so does every mixed vector returned, whatever the history, memory, mixing constant, damping and whatever the solution of the internal linear system.", "quantifier": "all call histories and vector dimensions", "why_tests_cant": "unbounded histories", "anchors": ["box/misc.py:AndersonMixer.__call__", "box/pulay.py:PulayMixer.__call__", "box/dummymixer.py:DummyMixer.__call__"]}
{"id": "C17", "title": "Mixing damping bounds every step", "statement": "With chop=c>0 the returned vector never differs from the input by more than c in any component (Anderson, Pulay); when the undamped change is smaller it is returned unchanged; a mixer called with identical input and output in the simple-mixing branch returns it unchanged.", "quantifier": "all histories and vectors", "why_tests_cant": "continuum", "anchors": ["box/misc.py:AndersonMixer.__call__", "box/pulay.py:PulayMixer.__call__"]}
{"id": "C18", "title": "Convergence reports are truthful", "statement": "Anderson mixer reports convergence iff the largest |output-input| of the current call is below the tolerance; Pulay mixer reports it iff at least four calls were made and the residuals of the last three calls are all below the tolerance, in particular the present one.", "quantifier": "all histories", "why_tests_cant": "unbounded histories", "anchors": ["box/misc.py:AndersonMixer.__call__", "box/pulay.py:PulayMixer.__call__"]}
{"id": "C19", "title": "Mixer selection honours the user's choice", "statement": "BuildMixer(None) gives a default Anderson mixer, a name (any capitalization) gives that mixer with defaults, a dict with 'name' gives that mixer with exactly the other entries as parameters, a dict without name and any other type raise, unknown names raise KeyError.", "quantifier": "every argument", "why_tests_cant": "all strings/dicts", "anchors": ["box/buildmixer.py:BuildMixer"]}
{"id": "C20", "title": "The density matrix is Hermitian, positive and counts the occupations", "statement": "compute_rho(wf,occ) is Hermitian for real occupations, positive semidefinite for non-negative ones, and for S-orthonormal eigenvectors trace(rho S) equals the sum of the occupations at each k-point; compute_rhoe has trace(rhoe S)=sum occ*e.", "quantifier": "all dimensions, all orthonormal eigenvector sets, all occupations", "why_tests_cant": "unbounded dimension", "anchors": ["hotbit/states.py:compute_rho", "hotbit/states.py:compute_rhoe"]}
{"id": "C21", "title": "Mulliken charges add up to the system's charge", "statement": "The excess populations returned by mulliken() sum (with minus sign) to the total charge: for S-orthonormal states occupied with the right number of electrons the built-in consistency check passes; it raises RuntimeError exactly when the mismatch exceeds tol_mulliken.", "quantifier": "all systems, k-meshes, occupations", "why_tests_cant": "unbounded sizes", "anchors": ["hotbit/states.py:States.mulliken", "hotbit/elements.py:Elements._elements_initialization"]}
{"id": "C22", "title": "Band-structure energy is the occupation-weighted sum of eigenvalues", "statement": "Without SCC, get_band_structure_energy equals sum_k w_k sum_a f_a e_a; with SCC it equals that minus the h1 contribution; it is real for Hermitian H0.", "quantifier": "all Hermitian H0, S, all eigen-solutions", "why_tests_cant": "unbounded sizes", "anchors": ["hotbit/states.py:States.get_band_structure_energy", "hotbit/solver.py:Solver.diagonalize"]}
{"id": "C23", "title": "Orbital bookkeeping is a partition", "statement": "first_orbitals/nr_orbitals describe consecutive, disjoint blocks covering 0..norb-1; orbitals(i,atom=True) returns the atom in whose block i lies; orbitals(a,indices=True) lists exactly the block of atom a; the per-orbital records carry matching index/atom/atomindex.", "quantifier": "every list of atoms and elements with any number of orbitals", "why_tests_cant": "unbounded lists", "anchors": ["hotbit/elements.py:Elements._elements_initialization", "hotbit/elements.py:Elements.orbitals", "hotbit/elements.py:Elements.get_property_lists"]}
{"id": "C24", "title": "Free-atom populations are between 0 and 2 and add up to the valence", "statement": "get_free_population(m) lies in [0,2] and the populations over an atom's orbitals sum to its number of valence electrons, for s, sp and spd atoms whose shells can hold them.", "quantifier": "all valence and s-occupation numbers, all orbital layouts", "why_tests_cant": "many combinations incl. d-before-p reordering", "anchors": ["hotbit/elements.py:Elements.get_free_population"]}
{"id": "C25", "title": "A cached result always belongs to the atoms it is returned for", "statement": "get_potential_energy(atoms) and get_forces(atoms) return the value a fresh calculator would compute for exactly that structure, whatever calls were made before on the same calculator.", "quantifier": "every finite history of calls (energy, forces, solve, set_atoms, set) with any structures", "why_tests_cant": "unbounded call histories", "anchors": ["hotbit/aseinterface.py:Hotbit.get_potential_energy", "hotbit/aseinterface.py:Hotbit.get_forces", "hotbit/aseinterface.py:Hotbit.solve_ground_state", "hotbit/elements.py:Elements.calculation_required", "hotbit/elements.py:Elements.set_solved", "hotbit/aseinterface.py:Hotbit.set_atoms"]}
{"id": "C26", "title": "A failed calculation does not corrupt later results", "statement": "If a calculation raises (SCC not converged, insane charges, ...), every later successful call still returns the correct values for its atoms.", "quantifier": "every crash point in every history", "why_tests_cant": "crash points", "anchors": ["hotbit/aseinterface.py:Hotbit.solve_ground_state", "hotbit/states.py:States.solve", "box/timing.py:Timer"]}
{"id": "C27", "title": "Calculator parameters are frozen after initialization", "statement": "After the first calculation set(key,value) raises AssertionError for every key but 'txt' and 'charge', and leaves all parameters unchanged; before it, it stores the value.", "quantifier": "every key, value and history", "why_tests_cant": "all histories", "anchors": ["hotbit/aseinterface.py:Hotbit.set", "hotbit/aseinterface.py:Hotbit.get"]}
{"id": "C28", "title": "Electrostatic Hamiltonian and energy are consistent", "statement": "h1 is symmetric, its element for two orbitals is the mean of their atoms' potentials (minus the mean external potential), shifting all potentials by a constant shifts h1 by the constant, the Coulomb energy equals half the charge-potential product, i.e. a quadratic form in the charges which is symmetric if gamma is, and Coulomb forces vanish for zero charges.", "quantifier": "all charges, potentials, block layouts", "why_tests_cant": "unbounded sizes", "anchors": ["hotbit/electrostatics.py:Electrostatics.construct_h1", "hotbit/electrostatics.py:Electrostatics.coulomb_energy", "hotbit/electrostatics.py:Electrostatics.set_dq"]}
{"id": "C29", "title": "Hamiltonian and overlap matrices are Hermitian at every k-point", "statement": "get_matrices returns H0(k) and S(k) equal to their conjugate transposes, for every geometry whose list of interacting images is closed under inversion.", "quantifier": "all k, geometries, tables", "why_tests_cant": "continuum", "anchors": ["hotbit/interactions.py:Interactions.get_matrices"]}
{"id": "C30", "title": "Slater-Koster rules respect exchange parity and rotations", "statement": "For every combination of 1, 4 or 9 orbitals the s-, p- and d-blocks of two-center elements are the textbook Slater-Koster combinations of the ten integrals; they transform covariantly under every rotation or reflection of the bond; swapping the bond direction multiplies each element by (-1)^(l1+l2); exchanging the atoms transposes the block; for a bond along z only sigma/pi/delta diagonal elements survive; the returned derivatives are the gradient of the returned elements; other orbital counts are refused.", "quantifier": "all bond vectors, integrals, rotations and orbital counts", "why_tests_cant": "continuum of directions and integrals", "anchors": ["hotbit/c/slako.c:fast_slako_transformations", "hotbit/interactions.py:simple_table_notation"]}
{"id": "C31", "title": "Repulsive energy and forces are consistent", "statement": "The repulsive energy counts each interacting pair (including periodic images) once, is invariant under relabelling atoms, forces sum to zero for finite systems, and the force is minus the derivative of the energy when the potential is differentiable.", "quantifier": "all geometries, potentials", "why_tests_cant": "continuum", "anchors": ["hotbit/repulsion.py:Repulsion.get_repulsive_energy", "hotbit/repulsion.py:Repulsion.get_repulsive_forces"]}
{"id": "C32", "title": "Pair potentials are attached to exactly the named pair", "statement": "add_pair_potential for atoms (i,j) affects pair {i,j} and no other; energies for (i,j) and (j,i) agree; the unit options convert consistently.", "quantifier": "all indices and potentials", "why_tests_cant": "unbounded indices", "anchors": ["hotbit/pairpotential.py:ij2s", "hotbit/pairpotential.py:PairPotential.add_pair_potential", "hotbit/pairpotential.py:PairPotential.get_energy"]}
{"id": "C33", "title": "van der Waals mixing rules are symmetric and consistent", "statement": "The pair C6 and R0 are symmetric in the two atoms, reduce to the atomic values for equal species, stay between the two atomic values; C6_from_p and p_from_C6 are mutually inverse; user supplied vdw_parameters are honoured.", "quantifier": "all positive parameters", "why_tests_cant": "continuum", "anchors": ["hotbit/vdw.py:setup_vdw", "hotbit/vdw.py:C6_from_p", "hotbit/vdw.py:p_from_C6", "hotbit/element.py:Element.update_vdw"]}
{"id": "C34", "title": "The neighbour list is sound, complete and symmetric", "statement": "get_neighbors returns exactly the pairs (i,j,image) with distance below the cutoff among the scanned images, never an atom with itself in the home cell, and for containers whose images are closed under inversion contains (j,i) with opposite vector whenever it contains (i,j).", "quantifier": "all geometries and cutoffs", "why_tests_cant": "continuum", "anchors": ["hotbit/neighbors.py:get_neighbors", "hotbit/neighbors.py:n_from_ranges"]}
{"id": "C35", "title": "Slater-Koster table files are resolved as documented", "statement": "For every pair of present elements the custom file is used if given (in either order), otherwise the default one only if allowed ('rest':'default' or nothing given), otherwise an error is raised before any calculation.", "quantifier": "all table dictionaries and element sets", "why_tests_cant": "all dictionaries", "anchors": ["hotbit/interactions.py:Interactions.__init__"]}
{"id": "C36", "title": "Element-pair keys are split correctly", "statement": "separate_symbols(A+B) returns (A,B) for all element symbols A and B.", "quantifier": "all pairs of one/two-letter symbols", "why_tests_cant": "all strings", "anchors": ["hotbit/auxil.py:separate_symbols"]}
{"id": "C37", "title": "Hermitization helpers do what they say", "statement": "make_hermitian(H) is Hermitian, keeps the upper triangle and diagonal (real), make_derivative_antihermitian is antihermitian.", "quantifier": "all matrices", "why_tests_cant": "unbounded size", "anchors": ["hotbit/auxil.py:make_hermitian", "hotbit/auxil.py:make_derivative_antihermitian", "hotbit/auxil.py:matrix_has_property"]}
{"id": "C38", "title": "Energy gap, HOMO and LUMO agree with the spectrum", "statement": "get_energy_gap returns the distance between the highest level at or below and the lowest level above the Fermi level, is non-negative, and the probability lies in [0,1]; it fails if one side is empty. get_homo/get_lumo return the highest/lowest state above/below the occupation threshold.", "quantifier": "all spectra and occupations", "why_tests_cant": "continuum", "anchors": ["hotbit/aseinterface.py:Hotbit.get_energy_gap", "hotbit/states.py:States.get_homo", "hotbit/states.py:States.get_lumo"]}
{"id": "C39", "title": "Timers are well nested and accumulate every interval", "statement": "start/stop in properly nested order never raise, leave no timer running, elapsed times are sums of the intervals and children's totals never exceed the parent's; stopping a timer that is not running raises.", "quantifier": "all start/stop sequences", "why_tests_cant": "unbounded sequences", "anchors": ["box/timing.py:Timer"]}
{"id": "C40", "title": "Spline interpolation is an exact natural cubic spline", "statement": "The tabulated second derivatives solve the natural-spline equations; the interpolant passes through all data points, is continuous with continuous first and second derivative at interior knots and has zero second derivative at the ends.", "quantifier": "all data on uniform grids of any length", "why_tests_cant": "unbounded tables", "anchors": ["box/interpolation.py:FastSplineFunction", "box/interpolation.py:MultipleSplineFunction"]}
{"id": "C41", "title": "Spline derivatives and range behaviour", "statement": "der=1 and der=2 return the derivatives of the value; outside the tabulated range values and derivatives are zero; inside the range MultipleSplineFunction and FastSplineFunction agree, including at the left end.", "quantifier": "all x and tables", "why_tests_cant": "continuum", "anchors": ["box/interpolation.py:FastSplineFunction.__call__", "box/interpolation.py:MultipleSplineFunction.__call__"]}
{"id": "C42", "title": "Trilinear interpolation is exact at nodes and bounded by the data", "statement": "At grid nodes the stored value is returned; elsewhere the value lies between the min and max of the eight corners; works for any grid origin.", "quantifier": "all grids, data, points", "why_tests_cant": "continuum", "anchors": ["box/interpolation.py:TrilinearInterpolation.__call__"]}
{"id": "C43", "title": "Direct Coulomb potentials, energy and forces are consistent", "statement": "potential = gamma*q, energy = 1/2 sum q phi, forces sum to zero for finite systems; results always correspond to the current positions, cell and charges.", "quantifier": "all clusters, charges, histories of updates", "why_tests_cant": "continuum, histories", "anchors": ["hotbit/coulomb/direct_coulomb.py:DirectCoulomb"]}
{"id": "C44", "title": "Multipole index is a gap-free bijection", "statement": "lm2index maps the pairs 1<=m<=l (l>=1) one-to-one onto 0,1,2,..., so moments never overlap and arrays have the exact size.", "quantifier": "all l,m", "why_tests_cant": "unbounded", "anchors": ["hotbit/coulomb/multipole.py:lm2index", "hotbit/c/spherical.h:lm2index"]}
{"id": "C45", "title": "Telescoped multipoles sum the potential of the promised block of image cells", "statement": "After update(atoms,q) of a MultipoleExpansion(l_max,n,k), the image cells that act on the atoms are the n^k cells around the atoms, each counted exactly once; every stored set of moments is that of its block of n^j cells; get_potential() equals the direct Coulomb sum over these cells (minus the dipole term in three-dimensional lattices) up to a stated bound that vanishes as l_max grows; get_field() is minus the gradient of that potential; energy and forces are the charge-weighted sums.", "quantifier": "all charges and positions, all commuting symmetries with a centre on the axis, odd n, any k>=1", "why_tests_cant": "unbounded levels, continuum, limit", "anchors": ["hotbit/coulomb/multipole_expansion.py:MultipoleExpansion.update", "hotbit/coulomb/multipole_expansion.py:MultipoleExpansion._update", "hotbit/coulomb/multipole_expansion.py:MultipoleExpansion.get_potential", "hotbit/coulomb/multipole_expansion.py:MultipoleExpansion.get_field"]}
{"id": "C46", "title": "Mulliken analysis is additive", "statement": "Population per basis function, per angular momentum, and per atom are consistent partial sums of one another and total to the number of electrons; get_atom_mulliken(I) equals get_atoms_mulliken()[I].", "quantifier": "all systems", "why_tests_cant": "unbounded", "anchors": ["hotbit/analysis/mulliken.py:MullikenAnalysis"]}
{"id": "C47", "title": "Linear response: neutral transitions, real frequencies, sum rule", "statement": "Mulliken transfer charges are symmetric in the two states and sum to the overlap of the states; exactly the pairs with positive excitation energy below the cutoff and falling occupation enter, and the selection never fails; the response matrix is symmetric; for a positive electrostatic matrix all frequencies are real and at least the smallest excitation energy; oscillator strengths are nonnegative and obey a sum rule independent of the electrostatics; the spectrum does not depend on the origin; get_excitation(i) is the i-th allowed excitation; a spectrum written to and read from a file is the same spectrum.", "quantifier": "all systems, occupations, cutoffs and electrostatic matrices", "why_tests_cant": "unbounded dimension, continuum", "anchors": ["hotbit/analysis/lr.py:LinearResponse.run", "hotbit/analysis/lr.py:LinearResponse.mulliken_transfer", "hotbit/analysis/lr.py:LinearResponse.get_excitation", "hotbit/analysis/lr.py:LinearResponse.read_spectrum"]}
{"id": "C48", "title": "Fortran-style records are expanded exactly and writers are inverse to readers", "statement": "Reading a line expands n*v to n copies of v and keeps order; reading back a line written by the skf writer returns the written row.", "quantifier": "all rows", "why_tests_cant": "unbounded", "anchors": ["hotbit/io/fortran.py:fortran_readline", "hotbit/io/hb2skf.py"]}
{"id": "C49", "title": "File-type detection classifies by extension", "statement": "filetype() returns 'elm','par','skf',... for those extensions in any case, and raises a proper error for others.", "quantifier": "all file names", "why_tests_cant": "all strings", "anchors": ["hotbit/io/__init__.py:filetype"]}
{"id": "C50", "title": "Work distribution assigns each item exactly once", "statement": "even_cpu_load returns ncpu lists that partition the items, keep each non-empty when possible, and raises if there are fewer items than CPUs.", "quantifier": "all size lists, all cpu counts", "why_tests_cant": "unbounded", "anchors": ["box/mix.py:even_cpu_load"]}
{"id": "C51", "title": "Number-theory helpers are correct", "statement": "divisors(x) lists exactly the positive divisors of x once; gcd(a,b) returns the greatest common divisor.", "quantifier": "all positive integers", "why_tests_cant": "unbounded", "anchors": ["box/mix.py:divisors", "box/mix.py:gcd"]}
{"id": "C52", "title": "phival returns the polar angle in [0,2*pi)", "statement": "For every (x,y), phival(x,y) is the angle phi in [0,2*pi) with x=r cos phi, y=r sin phi; it never reaches its RuntimeError.", "quantifier": "all real pairs", "why_tests_cant": "continuum, nine branches", "anchors": ["box/mix.py:phival"]}
{"id": "C53", "title": "rotation_matrix is the rotation about the given axis", "statement": "For every non-zero axis and angle the matrix is orthogonal with determinant one, fixes the axis and angles add for the same axis; the Sphere container's operations are therefore rotations with identity at n=0 .", "quantifier": "all axes and angles", "why_tests_cant": "continuum", "anchors": ["box/mix.py:rotation_matrix", "hotbit/containers/sphere.py:Sphere.rotation"]}
{"id": "C54", "title": "Gamma functions and their derivatives agree", "statement": "For Gaussian and Slater charge distributions the stored derivative is minus the radial derivative of the stored correction, and the full gamma (1/d plus correction) tends to U as two equal atoms approach.", "quantifier": "all distances and Hubbard parameters", "why_tests_cant": "continuum", "anchors": ["hotbit/electrostatics.py:get_Gaussian_gamma_correction", "hotbit/electrostatics.py:get_Slater_gamma_correction"]}
{"id": "C55", "title": "Ionisation/affinity extrapolation is exact for quadratic energies", "statement": "IP_EA returns exactly the ionization potential and electron affinity of one full electron for every energy quadratic in the number of added electrons, whatever fractions of an electron are added and removed.", "quantifier": "all quadratics and steps", "why_tests_cant": "continuum", "anchors": ["hotbit/parametrization/util.py:IP_EA"]}
{"id": "C56", "title": "Tail smoothing is continuous and ends at zero", "statement": "tail_smoothening leaves the data up to the cutoff point untouched; from there on all values lie on one curve through the last two retained points that vanishes with its slope at the end of the grid, without change of sign; failures are reported.", "quantifier": "all tables and m", "why_tests_cant": "unbounded", "anchors": ["hotbit/parametrization/util.py:tail_smoothening"]}
{"id": "C57", "title": "Repulsion read from an skf file equals the spline in the file", "statement": "The repulsive potential returned by the skf reader equals, at each grid point, the file's polynomial of the interval containing that point.", "quantifier": "all valid files", "why_tests_cant": "unbounded", "anchors": ["hotbit/io/dftb.py:read_repulsion_from_skf"]}
{"id": "C58", "title": "Number formatting/parsing helpers", "statement": "sec_to_time returns fields in range with total equal to the rounded seconds; base_and_extension and add_file_appendix recombine to the original name.", "quantifier": "all inputs", "why_tests_cant": "all strings/numbers", "anchors": ["box/mix.py:sec_to_time", "box/mix.py:base_and_extension", "box/mix.py:add_file_appendix"]}
{"id": "C59", "title": "Charge prediction preserves total charge", "statement": "guess_dq returns charges summing to minus the total charge at the first solve and, after any number of solves whose converged charges all sum to minus the charge, also later; zero without SCC.", "quantifier": "all histories", "why_tests_cant": "unbounded histories", "anchors": ["hotbit/states.py:States.guess_dq", "hotbit/states.py:States.large_update"]}
{"id": "C60", "title": "Solid harmonics and multipole moments have their textbook values", "statement": "The recurrences for regular and irregular solid harmonics give r^l e^{im phi} P_l^m(cos th)/(l+m)! and (l-m)! r^{-l-1} e^{im phi} P_l^m(cos th) with the associated Legendre functions of Rodrigues' formula, for every point, l and m, also at the origin and on the axis; get_moments returns the moments sum q conj(R_l^m) of the charges, the zeroth moment is the total charge and the first ones the dipole used for the dipole correction.", "quantifier": "all points, l, m, sets of charges", "why_tests_cant": "unbounded l, continuum", "anchors": ["hotbit/c/spherical.c:solid_harmonic_R", "hotbit/c/spherical.c:solid_harmonic_I", "hotbit/coulomb/multipole.py:get_moments"]}
{"id": "C61", "title": "Creating an Atoms object keeps the lattice vectors", "statement": "Atoms(..., cell=c, container=type) for the lattice containers (Bravais, Slab) makes the operation (1,0,0) the translation by the first row of c.", "quantifier": "every cell, atom list and point", "why_tests_cant": "continuum of cells; an existing test would have to compare translated positions after construction", "anchors": ["hotbit/atoms.py:Atoms.__init__", "hotbit/atoms.py:container_magic", "hotbit/containers/slab.py:Slab.transform", "hotbit/containers/bravais.py:Bravais.transform"]}
{"id": "C62", "title": "Plain cells are never mistaken for a container", "statement": "For plain ase.Atoms with an ordinary periodic cell the calculator uses the Bravais container, whatever the cell edge.", "quantifier": "every cell matrix", "why_tests_cant": "the failing cell edges form a discrete set no test would hit", "anchors": ["hotbit/atoms.py:container_magic", "hotbit/elements.py:Elements._update_atoms"]}
{"id": "C63", "title": "Each container's operations are the documented motions", "statement": "transform(r,n) acts as documented: Bravais translates by integer combinations of the cell vectors; Wedge, Chiral, DoubleChiral, ChiralWedge, ChiralGeneral advance the polar angle and height by the documented multiples; WedgeYAxis rotates about y; Slab translates, glides and reflects; TwistAndTurn turns along and twists about its circle.", "quantifier": "every point (in cylindrical coordinates), every legal operation, every parameter value", "why_tests_cant": "continuum of points and parameters; a sign error in the rotation direction is invisible to symmetric tests", "anchors": ["hotbit/containers/wedge.py:Wedge.transform", "hotbit/containers/chiral.py:Chiral.transform", "hotbit/containers/doublechiral.py:DoubleChiral.transform", "hotbit/containers/chiralwedge.py:ChiralWedge.transform", "hotbit/containers/wedgeyaxis.py:WedgeYAxis.transform", "hotbit/containers/chiralgeneral.py:ChiralGeneral.transform", "hotbit/containers/slab.py:Slab.transform", "hotbit/containers/twistandturn.py:TwistAndTurn.transform"]}
{"id": "C64", "title": "rotation(n) is the rotation that transform(.,n) applies to directions", "statement": "For every legal n, displacing r by v displaces transform(r,n) by rotation(n)*v (orbitals and forces are carried to images with this matrix).", "quantifier": "every container, point, displacement and operation", "why_tests_cant": "continuum; a container whose rotation is only right near one position passes tests with atoms there", "anchors": ["hotbit/atoms.py:Atoms.rotation", "hotbit/atoms.py:Atoms.transform", "hotbit/containers/twistandturn.py:TwistAndTurn.rotation"]}
{"id": "C65", "title": "Band-structure forces obey Newton's third law", "statement": "get_band_structure_forces returns forces that add up to zero over all atoms in each direction, whatever the wave functions, occupations and k-point weights, with or without SCC, provided the matrix derivatives are antihermitian (as they are when each bond contributes opposite derivatives to its two ends).", "quantifier": "All orbital tables, all eigenvectors, occupations, eigenvalues and weights, all antihermitian derivative matrices, symmetric h1 or none", "why_tests_cant": "The cancellation must hold for every electronic state and geometry; tests sample a few molecules to finite precision.", "anchors": ["hotbit/states.py:States.get_band_structure_forces", "hotbit/states.py:States.large_update"]}
{"id": "C66", "title": "The neighbour list matches its documentation", "statement": "get_neighbors(a, cutoff) lists every pair of atoms (periodic images included) closer than the cutoff, with the distance and a unit vector pointing from atom i to its neighbour j.", "quantifier": "all structures, containers and cutoffs", "why_tests_cant": "the scan of images is cut at five cells per direction; short cells with a large cutoff, or structures whose atoms lie on a symmetry axis, are rare in tests", "anchors": ["hotbit/neighbors.py:get_neighbors", "hotbit/neighbors.py:n_from_ranges"]}
{"id": "C67", "title": "The cutoff screens the Coulomb interaction smoothly to zero", "statement": "With a cutoff the direct Coulomb interaction is the bare one times a factor in (0,1) decreasing with distance, and is smoothly forced to zero at the cutoff distance, so the energy is continuous when a pair crosses the cutoff.", "quantifier": "all distances and cutoffs", "why_tests_cant": "continuum", "anchors": ["hotbit/coulomb/direct_coulomb.py:DirectCoulomb"]}
{"id": "C68", "title": "Text and vector conversion helpers lose nothing", "statement": "select_vector_mode converts a list of vectors to a flat array and back; clean_indentation removes only the common indentation; parse_name_for_atoms names every atom exactly once.", "quantifier": "all vectors, texts and symbol lists", "why_tests_cant": "unbounded inputs", "anchors": ["box/mix.py:select_vector_mode", "box/mix.py:clean_indentation", "box/mix.py:parse_name_for_atoms"]}
{"id": "C69", "title": "Rotation angle and axis recovered from a matrix reproduce it", "statement": "For every proper rotation matrix, rotation_from_matrix returns an angle in [0,2 pi) and an axis such that rotation_matrix(axis,angle) is the given matrix, for every random auxiliary vector drawn.", "quantifier": "all rotation matrices and random vectors", "why_tests_cant": "continuum and random choices", "anchors": ["box/mix.py:rotation_from_matrix"]}
{"id": "C70", "title": "Reciprocal k-points are converted to the same Bloch phases", "statement": "In a Bravais lattice the phase n.kappa of the converted point equals k.T(n) for the translation T(n) of operation n; other containers raise.", "quantifier": "all cells, k-points and operations", "why_tests_cant": "continuum", "anchors": ["hotbit/auxil.py:k_to_kappa_points"]}
{"id": "C71", "title": "Orbitals are carried along by the symmetry operation", "statement": "The 9x9 matrix that carries the orbitals of an atom to its image under a symmetry operation is the representation, on s, p and d cubic harmonics, of the operation's rotation matrix.", "quantifier": "all containers, operations and rotation angles", "why_tests_cant": "continuum of angles", "anchors": ["hotbit/interactions.py:Interactions.rotation_transformation", "hotbit/interactions.py:orbital_transformations_from_angles"]}
{"id": "C72", "title": "The derivative arrays are the derivatives of the matrices", "statement": "The arrays dH0 and dS built together with H0 and S are their derivatives with respect to atomic positions: block (i,j) holds the derivative of block (i,j) when atom i moves with all its images (for i=j: with the images fixed, and the total derivative is the array plus its conjugate transpose).", "quantifier": "all containers with orthogonal rotations, geometries, k-points, differentiable tables and orbital counts", "why_tests_cant": "continuum of geometries", "anchors": ["hotbit/interactions.py:Interactions.get_matrices"]}
{"id": "C73", "title": "Slater-Koster tables are assembled consistently from the files", "statement": "After reading, the integrals of a pair of elements in the two orders are related by the parity (-1)^(l1+l2) at every distance, come from the columns documented for their type, the interaction range is symmetric, and tables={'AB':None} switches the interaction off.", "quantifier": "all table files, element pairs, valence orbitals and distances", "why_tests_cant": "continuum of distances, all table contents", "anchors": ["hotbit/interactions.py:Interactions.read_tables", "hotbit/io/native.py:read_HS_from_par", "box/interpolation.py:MultipleSplineFunction"]}
{"id": "C74", "title": "Interpolated paths contain the given points", "statement": "interpolate_path returns a path that contains the given points, at least the wanted number of points, the distance of every point of the path from its start, and as labels the distances of the given points.", "quantifier": "all lists of points and wanted numbers", "why_tests_cant": "short parts next to long ones are rare in tests", "anchors": ["box/interpolation.py:interpolate_path"]}
{"id": "C75", "title": "The mixers return the best combination of remembered charges", "statement": "Without damping the first two calls of the Anderson mixer return the fraction beta of the way from input to output; later calls return x+beta*F for the combination (weights adding to one) of the remembered inputs whose combined residual is shortest; for affine problems this is exactly self-consistent as soon as some combination is. Pulay mixing likewise.", "quantifier": "all histories, memories, mixing constants and dimensions", "why_tests_cant": "unbounded histories, continuum of vectors", "anchors": ["box/misc.py:AndersonMixer.__call__", "box/pulay.py:PulayMixer.__call__"]}
{"id": "C76", "title": "Unphysical charges are refused", "statement": "After the self-consistent solution an exception is raised exactly if the excess number of electrons of some atom exceeds its atomic number in absolute value.", "quantifier": "all charges and elements", "why_tests_cant": "continuum", "anchors": ["hotbit/states.py:States.check_mulliken_charges"]}
{"id": "C77", "title": "Shifting multipole moments is exact", "statement": "multipole_to_multipole adds to the moments about a parent centre exactly the moments of the child's charges about the parent centre, for every shift and every order.", "quantifier": "all charges, centres, orders", "why_tests_cant": "unbounded l, continuum", "anchors": ["hotbit/c/multipole.c:multipole_to_multipole"]}
{"id": "C78", "title": "Rotating multipole moments is exact", "statement": "transform_multipole applied to the moments of some charges gives the moments of the rotated charges, for every orthogonal matrix (proper or not) and every order.", "quantifier": "all orthogonal matrices, charges, orders", "why_tests_cant": "unbounded l, continuum", "anchors": ["hotbit/c/multipole.c:transform_multipole"]}
{"id": "C79", "title": "Local expansions are shifted exactly; potential and field are read off correctly", "statement": "local_to_local describes the same potential about another centre; its first coefficients are the potential there and minus the gradient, which the calculator reports as potential and field of an atom.", "quantifier": "all expansions, shifts, orders, directions", "why_tests_cant": "unbounded l, continuum", "anchors": ["hotbit/c/multipole.c:local_to_local", "hotbit/coulomb/multipole_expansion.py:MultipoleExpansion._update"]}
{"id": "C80", "title": "Far charges enter the local expansion through their Taylor series", "statement": "multipole_to_local adds, in every direction and degree, exactly the Taylor term of the potential of the multipole moments at the centre of the local expansion.", "quantifier": "all moments, distances, degrees, directions", "why_tests_cant": "unbounded l, continuum", "anchors": ["hotbit/c/multipole.c:multipole_to_local"]}
{"id": "C81", "title": "The multipole expansion converges to the Coulomb potential with a known error", "statement": "Outside a sphere of radius A around the centre containing all charges, the potential of the moments up to l_max differs from the Coulomb potential of the charges by at most sum|q| (A/R)^(l_max+1)/(R-A) at distance R, and converges to it.", "quantifier": "all sets of charges, observers, orders", "why_tests_cant": "continuum, limit", "anchors": ["hotbit/coulomb/multipole.py:get_moments", "hotbit/c/spherical.c:solid_harmonic_I"]}
{"id": "C82", "title": "Moments of distant charges convert into a local expansion with a known error", "statement": "multipole_to_local turns the moments of charges about c into a local expansion whose potential around c+dr differs from the Coulomb potential of the charges by at most a stated bound, when the sphere of the charges and the sphere of the point do not reach each other; it converges to it as l_max grows, and adds to what was in the expansion before.", "quantifier": "all sets of charges, displacements, points, orders", "why_tests_cant": "continuum, limit", "anchors": ["hotbit/coulomb/multipole.py:multipole_to_local", "hotbit/c/multipole.c:multipole_to_local"]}
{"id": "C83", "title": "Cached multipole expansions are never stale", "statement": "A MultipoleExpansion object that has been updated any number of times with other positions and charges gives the same potential, field and expansion as a new object.", "quantifier": "all histories of updates", "why_tests_cant": "histories", "anchors": ["hotbit/coulomb/multipole_expansion.py:MultipoleExpansion.update"]}
{"id": "C84", "title": "Broadening conserves weight", "statement": "broaden(x,y) returns on the grid the sum of normalized peaks centred at x with weights y: the integral of the curve is the sum of the weights, it is nonnegative for nonnegative weights, and the default axis runs from the lowest to the highest x (extended by four widths on request).", "quantifier": "all lists of positions and weights, widths, grids, both peak functions", "why_tests_cant": "continuum, integrals", "anchors": ["box/mix.py:broaden"]}
{"id": "C85", "title": "Local and projected densities of states add up to the density of states", "statement": "get_local_density_of_states gives for every atom the sum over the states in the window of their Mulliken weight times a normalized Gaussian; the angular momentum parts add up to the atomic ones and these to get_density_of_states.", "quantifier": "all systems, k-points, widths, windows and grids", "why_tests_cant": "unbounded systems, continuum", "anchors": ["hotbit/analysis/mulliken.py:DensityOfStates.get_density_of_states", "hotbit/analysis/mulliken.py:DensityOfStates.get_local_density_of_states"]}
{"id": "C86", "title": "Atom and bond energies add up to the total energy; Mayer bond orders to the populations", "statement": "The promotion, atom and bond energies are real and the contributions get_atom_and_bond_energy of all atoms add up to the total energy with respect to the free atoms; Mayer bond orders are defined for every pair of atoms, symmetric, and for doubly occupied orthonormal states the bond orders of an atom add up to twice its population.", "quantifier": "all systems, k-points, Hermitian matrices, density matrices", "why_tests_cant": "unbounded systems, continuum", "anchors": ["hotbit/analysis/mulliken.py:MullikenBondAnalysis"]}
{"id": "C87", "title": "Covalent energies of all pairs add up to the covalent energy", "statement": "get_covalent_energy gives real energies for every state; those of all pairs of atoms, of all pairs of orbitals and of all pairs of angular momenta add up to the total; for an eigenstate this is the eigenvalue minus the orbital energies weighted with the populations; weighted with the occupations the states add up to the band energy minus the orbital energies; the broadened curve is the sum of Gaussians.", "quantifier": "all systems, k-points, states, modes, windows and widths", "why_tests_cant": "unbounded systems, continuum", "anchors": ["hotbit/analysis/mulliken.py:MullikenBondAnalysis.get_covalent_energy"]}
{"id": "C88", "title": "Slater-Koster tables keep their distances through skf files", "statement": "read_HS of an skf file with step h and n returns the rows of the file at the distances h, 2h, ...; writing a table as an skf file and reading it back gives the same values at the same distances, whatever the values; the two readers of skf tables agree.", "quantifier": "all files, grids, tables, homonuclear and heteronuclear", "why_tests_cant": "unbounded files and tables", "anchors": ["hotbit/io/dftb.py:read_HS_from_skf", "hotbit/parametrization/util.py:read_skf_table", "hotbit/io/hb2skf.py"]}
{"id": "C89", "title": "Every basis orbital has the on-site energy of its shell", "statement": "For an element with s, sp or spd valence shells, get_onsite_energies lists the energies in the order of get_orbital_types, whatever the order of the shells in the data base: each orbital has the energy that the file gives for its shell.", "quantifier": "all energies, all orders of shells, elm and skf files", "why_tests_cant": "unbounded inputs", "anchors": ["hotbit/io/native.py:read_element_from_elm", "hotbit/io/dftb.py:read_element_from_skf", "hotbit/element.py:Element.get_orbital_types", "box/data.py"]}
{"id": "C90", "title": "find_value returns the value of the first line with the key", "statement": "find_value(f,key) returns the first word of the value on the first line with that key, independent of blanks and of the order of the other lines; tables are returned row by row without comments; a missing key gives the default or a RuntimeError.", "quantifier": "all files and keys", "why_tests_cant": "all texts", "anchors": ["box/mix.py:find_value", "box/mix.py:read"]}
{"id": "C91", "title": "Parameter files are read as written, errors are reported", "statement": "read_HS returns first column and remaining columns of the table A_B_table; read_repulsion the two columns of the table repulsion; read_element the values of the elm file; a table that is missing or cannot be read is reported.", "quantifier": "all files", "why_tests_cant": "all texts", "anchors": ["hotbit/io/native.py:read_HS_from_par", "hotbit/io/native.py:read_repulsion_from_par", "hotbit/io/native.py:read_element_from_elm"]}
{"id": "C92", "title": "The element data base is consistent", "statement": "Configurations are built without error; for every element the occupations add up to the nuclear charge, no shell is overfull, and the number of valence electrons is the number of electrons in the valence orbitals.", "quantifier": "all elements of the data base", "why_tests_cant": "the table is built at import time by a loop over cores", "anchors": ["box/data.py"]}
{"id": "C93", "title": "The exchange-correlation potential is the derivative of the energy density", "statement": "The exchange-correlation energy per electron is the Slater exchange plus the Perdew-Wang 1992 interpolation formula at the Wigner-Seitz radius of the density, it is negative, and vxc(n) is the derivative of n*exc(n) at every density.", "quantifier": "all densities", "why_tests_cant": "continuum", "anchors": ["hotbit/parametrization/atom.py:XC_PW92"]}
{"id": "C94", "title": "A radial state solves the discretised radial equation with the right number of nodes", "statement": "The function and energy found for a state satisfy the finite difference radial equation at all inner grid points but the turning point, where the residual is below the convergence limit; the function is normalised, starts positive and has n-l-1 nodes; on the logarithmic grid the equation is the radial Schrodinger equation.", "quantifier": "all grids, potentials, energies, angular momenta and numbers of turns of the search", "why_tests_cant": "continuum, unbounded iteration", "anchors": ["hotbit/parametrization/atom.py:shoot", "hotbit/parametrization/atom.py:KSAllElectron.solve_eigenstates", "hotbit/parametrization/atom.py:KSAllElectron.construct_coefficients"]}
{"id": "C95", "title": "Radial integration, density and Hartree potential of the atom", "statement": "The shell volumes add up to the volume of the sphere; integration is linear and exact for constants (and, along r, for linear functions); the guessed and computed densities hold the right number of electrons; the Hartree potential is the potential of the charged shells, it falls and is bounded by charge over distance.", "quantifier": "all grids and densities", "why_tests_cant": "continuum, unbounded grids", "anchors": ["hotbit/parametrization/atom.py:RadialGrid", "hotbit/parametrization/atom.py:KSAllElectron.calculate_Hartree_potential", "hotbit/parametrization/atom.py:KSAllElectron.guess_density", "hotbit/parametrization/atom.py:KSAllElectron.calculate_density"]}
{"id": "C96", "title": "An atom is solved for exactly its states, or an error is raised", "statement": "Every occupied state is solved under its name (n and l can be read back from it); a solved atom has density and energies converged within the limits, the occupations add up to the number of electrons, its total energy is kinetic plus external plus electrostatic plus exchange-correlation energy; confinement potentials have the documented form and grow outwards; unknown modes are refused.", "quantifier": "all occupations, confinements, iterations", "why_tests_cant": "unbounded iterations, all names", "anchors": ["hotbit/parametrization/atom.py:orbit_transform", "hotbit/parametrization/atom.py:KSAllElectron.list_states", "hotbit/parametrization/atom.py:KSAllElectron.run", "hotbit/parametrization/atom.py:ConfinementPotential"]}
{"id": "C97", "title": "Angular parts of the Slater-Koster integrals are the integrals of spherical harmonics", "statement": "The ten angular functions are the integrals over the azimuth of the products of real spherical harmonics of the named kinds (dds, ddp, ddd, pds, pdp, pps, ppp, sds, sps, sss), all other products integrate to zero, and the functions are normalised.", "quantifier": "all pairs of polar angles and all pairs of orbitals up to d", "why_tests_cant": "continuum", "anchors": ["hotbit/parametrization/slako.py:g", "hotbit/parametrization/slako.py:integrals"]}
{"id": "C98", "title": "The grid of the two-centre integrals covers the half plane once", "statement": "Every element of the grid has exactly the area of its ring segment below the plane between the atoms and a centre in the segment; the areas add up to the whole region; all points are within the range of both atoms; the grid is its own mirror image; making it never fails for distances within twice the range.", "quantifier": "all distances, ranges, numbers of points and exponents", "why_tests_cant": "continuum, all grid sizes", "anchors": ["hotbit/parametrization/slako.py:SlaterKosterTable.make_grid"]}
{"id": "C99", "title": "The Slater-Koster table holds the integrals of the right orbitals, symmetric where it should be", "statement": "For each pair of elements and each distance up to twice the range the table holds Hamiltonian and overlap integrals of the kinds for which both elements have valence orbitals, at their places, zeros elsewhere and beyond; overlaps between equal angular momenta do not depend on the order of the atoms; for orbitals which solve the radial equation the Hamiltonian integral equals the one calculated with the other method with the atoms exchanged; too small distances and too large ranges are refused; the table can be run again.", "quantifier": "all elements, orbitals, grids and distances", "why_tests_cant": "continuum, all tables", "anchors": ["hotbit/parametrization/slako.py:SlaterKosterTable.calculate_mels", "hotbit/parametrization/slako.py:SlaterKosterTable.run", "hotbit/parametrization/slako.py:SlaterKosterTable.get_range", "hotbit/parametrization/slako.py:select_integrals", "hotbit/parametrization/atom.py:KSAllElectron.get_wf_range"]}
{"id": "C100", "title": "Written Slater-Koster tables are read as they were, to seven digits", "statement": "Numbers written with seven digits are read with a relative error of at most 5E-7; after write(), reading the table of each pair from the file gives the distances and the 20 columns of the smoothed tables within this error (numbers below 1E-90 become zero); each column written is the smoothed one, and if one cannot be smoothed the error is raised and nothing is written.", "quantifier": "all tables, comments and chemical symbols", "why_tests_cant": "all real numbers and texts", "anchors": ["hotbit/parametrization/slako.py:SlaterKosterTable.write", "hotbit/parametrization/slako.py:SlaterKosterTable.smooth_tails", "hotbit/io/native.py:read_HS_from_par"]}
{"id": "C101", "title": "Spherical harmonics of the analysis are the textbook ones", "statement": "Ylm(l,m) is the textbook spherical harmonic (Condon-Shortley phase, complex) for every l up to 6 and every m with |m| at most l; the functions are orthonormal on the sphere; for any other l and m an error is raised instead of a wrong function.", "quantifier": "all l, m and angles", "why_tests_cant": "continuum", "anchors": ["hotbit/analysis/wavefunctions.py:Ylm"]}
{"id": "C102", "title": "Angular parts of atomic orbitals are the real spherical harmonics", "statement": "Spherical coordinates of any vector lie in their ranges and describe the vector; angular(r,wf) is the normalised real harmonic of the orbital, for its index as for its name, and any other name is an error.", "quantifier": "all vectors, all nine orbitals", "why_tests_cant": "continuum", "anchors": ["hotbit/analysis/wavefunctions.py:to_spherical_coordinates", "hotbit/analysis/wavefunctions.py:angular"]}
{"id": "C103", "title": "The grid spans the unit cell with the asked spacing", "statement": "Grids are made for orthogonal cells and refused for others; the grid points run from face to face, evenly spaced, with at least the asked resolution; the grid around an atom reaches the cutoff.", "quantifier": "all cells, spacings and cutoffs", "why_tests_cant": "continuum", "anchors": ["hotbit/grids.py:Grids.__init__", "hotbit/grids.py:Grids._return_array", "hotbit/atoms.py:Atoms.get_cell"]}
{"id": "C104", "title": "A basis orbital on the grid is the orbital of all periodic images of the atom", "statement": "The value of a basis orbital at a grid point is the sum over periodic images within the cutoff box of phase, radial function and angular part at the displacement to the nearest grid position of the atom; the displacement is wrong by at most half a spacing.", "quantifier": "all cells, positions, orbitals and images", "why_tests_cant": "continuum, unbounded images", "anchors": ["hotbit/grids.py:Grids.get_grid_basis_orbital", "hotbit/grids.py:Grids._add_atomic_orbital"]}
{"id": "C105", "title": "States and densities on the grid", "statement": "A state on the grid is the combination of the basis orbitals with its coefficients; its density is the squared modulus; the density is the weighted sum over the occupied states; the local density of states sums the states in the asked window around the Fermi level.", "quantifier": "all states, weights, occupations and windows", "why_tests_cant": "unbounded bands and k-points", "anchors": ["hotbit/grids.py:Grids.get_grid_wf", "hotbit/grids.py:Grids.get_grid_wf_density", "hotbit/grids.py:Grids.get_grid_density", "hotbit/grids.py:Grids.get_grid_LDOS"]}
{"id": "C106", "title": "Setting the parameters of a container is read back", "statement": "After set() with some of its parameters every container reports exactly the given values for those and the old values for the others; without scaling no atom moves; an offset that is not a half integer is refused; parameters can be copied from another container; named parameters of the container can all be set.", "quantifier": "all containers, all subsets of parameters and values", "why_tests_cant": "continuum of values, all combinations", "anchors": ["hotbit/containers/chiral.py:Chiral.set", "hotbit/containers/doublechiral.py:DoubleChiral.set", "hotbit/containers/chiralwedge.py:ChiralWedge.set", "hotbit/containers/wedgeyaxis.py:WedgeYAxis.set", "hotbit/containers/twistandturn.py:TwistAndTurn.set", "hotbit/containers/sphere.py:Sphere.set", "hotbit/containers/slab.py:Slab.set", "hotbit/atoms.py:Atoms.set_container"]}
{"id": "C107", "title": "Scaling atoms with the container scales the whole periodic structure", "statement": "When a parameter of a container is set with scaling, the atoms are moved by a map in cylinder coordinates that takes each atom to its new place and each periodic image under the old parameters to the same image under the new ones.", "quantifier": "all containers with scaling, all atoms, all images and parameter values", "why_tests_cant": "continuum, unbounded images", "anchors": ["hotbit/containers/chiral.py:Chiral.set", "hotbit/containers/doublechiral.py:DoubleChiral.set", "hotbit/containers/chiralwedge.py:ChiralWedge.set", "hotbit/containers/wedge.py:Wedge.set", "hotbit/containers/wedgeyaxis.py:WedgeYAxis.set", "hotbit/containers/twistandturn.py:TwistAndTurn.set"]}
{"id": "C108", "title": "External potentials act on the electrons, the energy and the forces", "statement": "The laser potential is that of a uniform field of the strength of its flux, oscillating with its photon energy along the normalised polarisation; after any history of additions and time steps the external potential is the sum of all added ones at the present time, at points and at atoms; a uniform potential shifts all levels together; the reported energy and forces include the external potential, also of potentials added after a calculation.", "quantifier": "all lasers, potentials, times, histories and positions", "why_tests_cant": "continuum, unbounded histories", "anchors": ["hotbit/environment.py:LinearlyPolarizedLaser", "hotbit/environment.py:Environment", "hotbit/electrostatics.py:Electrostatics.construct_h1", "hotbit/aseinterface.py:Hotbit.get_potential_energy"]}
{"id": "C109", "title": "The dielectric function sums all excitations up to the cutoff", "statement": "get_dielectric_function() uses every vertical excitation from a lower to a higher state with an occupation difference, once, up to the cutoff, with the squared velocity elements; it returns their broadened sum at N energies; it works with its default arguments and can be called again after an error.", "quantifier": "all band structures, widths, cutoffs and grid sizes", "why_tests_cant": "unbounded bands and k-points", "anchors": ["hotbit/aseinterface.py:Hotbit.get_dielectric_function"]}
{"id": "C110", "title": "Fitting data of a repulsion are those of the structures", "statement": "Points appended to a repulsion fit are kept in order with weight, distance, derivative, colour and comment and are saved and loaded unchanged; the derivative of a scalable structure, a dimer, an energy curve or a cluster is the one for which the repulsion reproduces the reference energies or forces; automatic colours are given in turn; structures without suitable bonds are refused.", "quantifier": "all histories of appended data, all structures, energies, forces and repulsions", "why_tests_cant": "unbounded histories and continuum of structures", "anchors": ["hotbit/parametrization/fitting.py:RepulsiveFitting.append_point", "hotbit/parametrization/fitting.py:RepulsiveFitting.append_scalable_system", "hotbit/parametrization/fitting.py:RepulsiveFitting.append_dimer", "hotbit/parametrization/fitting.py:RepulsiveFitting.append_energy_curve", "hotbit/parametrization/fitting.py:RepulsiveFitting.append_homogeneous_cluster", "hotbit/parametrization/fitting.py:RepulsiveFitting.write_fitting_data"]}
{"id": "C111", "title": "The fitted repulsion integrates the smoothed derivative up to the cutoff", "statement": "fit() joins data of almost the same distance into their weighted mean, uses every datum within the cutoff, forces zero at the cutoff and uses a smaller order if there are few data; afterwards the repulsion is minus the integral of the fitted derivative from the distance to the cutoff, zero from there on together with its derivative; fitting again after appending data gives the same as fitting all data at once; without a fit or without data there is an error.", "quantifier": "all data, weights, cutoffs, orders, and histories of fits", "why_tests_cant": "continuum of data, unbounded numbers of points", "anchors": ["hotbit/parametrization/fitting.py:RepulsiveFitting.fit", "hotbit/parametrization/fitting.py:RepulsiveFitting._group_closeby_points", "hotbit/parametrization/fitting.py:RepulsiveFitting._integrate_vrep", "hotbit/parametrization/fitting.py:RepulsiveFitting.__call__"]}
{"id": "C112", "title": "A written repulsion is the one used in calculations", "statement": "write_par(input) gives a file that begins with the input file, whose tables are read as before and whose repulsion is read as the fitted repulsion in atomic units; without a fit no file with a repulsion is left.", "quantifier": "all fits, input files, comments and number formats", "why_tests_cant": "all files", "anchors": ["hotbit/parametrization/fitting.py:RepulsiveFitting.write_par", "hotbit/io/native.py:read_repulsion_from_par", "box/mix.py:find_value"]}
{"id": "C113", "title": "Graphene and ribbons are honeycombs with the stated edges", "statement": "graphene(n1,n2,R) is a honeycomb of bond length R, each site being exactly one periodic image of one of its 2 n1 n2 atoms; AGNR, ZGNR, armchair_ribbon and zigzag_ribbon are endless strips of a honeycomb with armchair or zigzag edges and the requested number of rows, along x or z, with each site one image of one atom, for every length.", "quantifier": "all sizes, lengths, bond lengths and directions", "why_tests_cant": "unbounded sizes, infinitely many images", "anchors": ["box/systems.py:graphene", "box/systems.py:ZGNR", "box/systems.py:AGNR", "box/systems.py:armchair_ribbon", "box/systems.py:zigzag_ribbon"]}
{"id": "C114", "title": "Nanotube data are those of the rolled-up honeycomb", "statement": "nanotube_data(n,m,R) gives, for every tube, the circumference as the length of the chiral vector, the diameter and radius of the cylinder, the length of the shortest lattice translation along the tube, the number of hexagons in that unit, the chiral angle, the type armchair, zigzag or chiral, and metallic exactly when the tube's wave vectors meet the corner of the Brillouin zone; without a chiral vector it raises ZeroDivisionError.", "quantifier": "all n, m >= 0 not both zero, all bond lengths, all primitive vectors", "why_tests_cant": "unbounded indices; minimum over all lattice vectors", "anchors": ["box/systems.py:nanotube_data"]}
{"id": "C115", "title": "Chiral nanotubes are the endless tube, each site once", "statement": "chiral_nanotube(n,m,R,element) has 2(n+m) atoms of the element in a chiral container; the images of the atoms under all operations of the container are exactly the sites of the endless (n,m) tube of bond length R, and each site is one image of one atom; the data are those of the tube with the height and twist of the container.", "quantifier": "all n, m >= 0 not both zero, all bond lengths and elements", "why_tests_cant": "infinitely many images for every tube", "anchors": ["box/systems.py:chiral_nanotube", "hotbit/containers/chiral.py:Chiral"]}
{"id": "C116", "title": "Nanotubes in a periodic cell are the endless tube", "statement": "nanotube(n,m,R,length) has two atoms for each hexagon of its length units; the periodic images of the atoms are exactly the sites of the endless (n,m) tube of bond length R around the z axis, each site one image of one atom; its data are those of the tube; CNT_list(i) gives the i-th of all tubes wider than two Angstrom ordered by the number of atoms.", "quantifier": "all n, m >= 0 not both zero, bond lengths, lengths and i", "why_tests_cant": "unbounded indices, infinitely many images", "anchors": ["box/systems.py:nanotube", "box/systems.py:CNT_list", "box/systems.py:nanotube_data"]}
{"id": "C117", "title": "Parameter files of a directory are found", "statement": "database_from_path(path) lists every element file of the directories as the file of its element, nothing else, and for every pair of these elements the table file A_B.par, or B_A.par if there is only that; without element files it lists all skf files of all directories; without any file it raises RuntimeError.", "quantifier": "all directories, lists of directories, sets of files and orders in which they are listed", "why_tests_cant": "unbounded sets of files and names", "anchors": ["hotbit/aseinterface.py:database_from_path"]}
{"id": "C118", "title": "Analyses, charges and grids belong to the current structure", "statement": "Population, density-of-states and bonding analyses work with the converged electronic structure of the atoms the calculator currently holds, whatever was calculated before and whichever calls raised; once the energy of a structure was returned they return for it; get_dq(A) and get_charges(A) give the charges of A; set_grid(h) makes a grid of spacing h for the current cell, on which the current states are drawn.", "quantifier": "all histories of calls of the calculator, including calls that raise half way", "why_tests_cant": "histories are unbounded; results depend on hidden flags and stored objects", "anchors": ["hotbit/aseinterface.py:_init_mulliken", "hotbit/aseinterface.py:_init_DOS", "hotbit/aseinterface.py:_init_bonds", "hotbit/aseinterface.py:set_grid", "hotbit/aseinterface.py:get_dq", "hotbit/aseinterface.py:solve_ground_state"]}
{"id": "C119", "title": "Ewald sums give the potential of the periodic charges", "statement": "The Ewald potentials of neutral periodic charges converge, as the accuracy goal grows, to values that do not depend on the weight between real and reciprocal space, nor on which image of an atom is listed, and that are the limit of the directly summed screened interaction as the screening is removed; so do the energies. Potentials are linear in the charges, mutual interactions symmetric, and moving all atoms together changes nothing. What is left out at an accuracy goal a is damped to 10^-a.", "quantifier": "all cells, positions without coincident atoms, neutral charges, weights and accuracy goals", "why_tests_cant": "a limit of infinite lattice sums over all real positions, cells and weights", "anchors": ["hotbit/coulomb/ewald_sum.py:EwaldSum.update", "hotbit/coulomb/ewald_sum.py:EwaldSum.get_potential", "hotbit/coulomb/ewald_sum.py:EwaldSum.get_potential_energy"]}
{"id": "C120", "title": "Every container can be made; the saddle container acts as a group", "statement": "Atoms(container=name) makes a container for each of the container classes and refuses other names; operations of the saddle container are rigid motions with the rotation that rotation(n) returns, and doing n and then m is doing n+m.", "quantifier": "all names, parameters, positions and operations", "why_tests_cant": "all real angles and radii, all integers", "anchors": ["hotbit/containers/saddle.py:Saddle", "hotbit/containers/gaussian.py:Gaussian", "hotbit/atoms.py:Atoms.__init__", "hotbit/atoms.py:container_magic"]}
{"id": "C121", "title": "The states are the solutions of the generalised eigenvalue problem", "statement": "For a Hermitian Hamiltonian and a positive definite overlap, the energies and orbital coefficients found at every k-point solve H c = e S c, with ascending energies and coefficients orthonormal with respect to S; the energies are thereby determined by the matrices; the matrices are not changed; matrices without such a solution raise an error.", "quantifier": "all numbers of orbitals, Hermitian Hamiltonians, overlaps, lists of k-points and electrostatic parts", "why_tests_cant": "all matrices of all sizes", "anchors": ["hotbit/solver.py:Solver.diagonalize", "hotbit/solver.py:Solver.get_eigenvalues_and_wavefunctions", "hotbit/c/geig.c:py_geig"]}
{"id": "C122", "title": "Band energies at given k-points", "statement": "get_band_energies without points returns the eigenvalues of the calculation; with points the energies of the states there, in eV, from the Fermi level if asked; at the points of the calculation both agree; energies are periodic under 2 pi times integers and equal at opposite points, so that the reduced mesh with its weights gives the mean over the whole mesh; k-points mean the kappa-points with the Bloch phases exp(i k.T); asking for band energies changes nothing.", "quantifier": "all structures, tables, lists of points, meshes up to 10^10 points per direction, with and without SCC", "why_tests_cant": "unbounded lists of real points and all matrices", "anchors": ["hotbit/aseinterface.py:Hotbit.get_band_energies", "hotbit/states.py:States.get_band_energies", "hotbit/states.py:States.setup_k_sampling", "hotbit/auxil.py:k_to_kappa_points"]}
{"id": "C123", "title": "Element data come from the named files and the given directory", "statement": "Each element present is read once, from the file named for it in elements, otherwise (if elements is None or elements['rest'] is 'default') from symbol.elm in the parameter directory; named files that do not exist, missing default files and elements without a file are refused; the data are those of the element; a file name without '.elm' and Element objects may be given; a calculator uses the directory passed to it as parameters, or else the one in HOTBIT_PARAMETERS.", "quantifier": "all file systems, dictionaries of elements, lists of atoms, and histories of making and using calculators", "why_tests_cant": "unbounded sets of files, names and histories of several calculators", "anchors": ["hotbit/element.py:Element.__init__", "hotbit/elements.py:Elements.__init__", "hotbit/elements.py:Elements._elements_initialization", "hotbit/aseinterface.py:Hotbit.__init__"]}
{"id": "C124", "title": "The forces are minus the gradient of the energy", "statement": "For converged self-consistent (or non-self-consistent) calculations, the force on an atom is minus the derivative of the reported potential energy with respect to its position, all contributions (bands, overlap, charges, repulsion) taken together, for any number of k-points and electronic width.", "quantifier": "all structures and symmetric containers, tables, k-points, charges, widths and atoms moved, where the converged solution can be followed smoothly", "why_tests_cant": "a derivative of a self-consistent solution over all real positions; rounding hides it from finite differences", "anchors": ["hotbit/aseinterface.py:Hotbit.get_potential_energy", "hotbit/aseinterface.py:Hotbit.get_forces", "hotbit/states.py:States.get_band_structure_forces", "hotbit/electrostatics.py:Electrostatics.gamma_forces", "hotbit/occupations.py:Occupations"]}
{"id": "C125", "title": "Energy and forces do not depend on where and how the structure is placed", "statement": "Turning, reflecting or shifting a molecule or a crystal together with its cell, or turning a structure with a symmetry axis about it and shifting it along it, leaves the potential energy, the charges, the energies of the states and the chemical potential as they are and turns the forces along; if the calculation fails for one placement, it fails with the same error for all.", "quantifier": "all structures, cells, boundary conditions, k-points, tables of the right parity, orthogonal matrices and shifts, with and without SCC", "why_tests_cant": "all real rotations and shifts, through an iteration of unknown length; tests compare a few angles up to rounding", "anchors": ["hotbit/aseinterface.py:Hotbit.get_potential_energy", "hotbit/aseinterface.py:Hotbit.get_forces", "hotbit/states.py:States.solve", "hotbit/solver.py:Solver.get_states", "hotbit/interactions.py:Interactions.get_matrices"]}
{"id": "C126", "title": "Functionals from libxc give the energy and its potential", "statement": "A functional can be chosen by any of the listed names in upper or lower case, and no other; the potential of the atom is the functional derivative of its exchange-correlation energy, for functionals with and without gradients, given in one or two parts; gradient functionals without a grid are refused.", "quantifier": "all names, functionals, densities, grids and changes of the density", "why_tests_cant": "all smooth densities and changes of them", "anchors": ["hotbit/parametrization/pylibxc_interface.py:libXCFunctional", "hotbit/parametrization/pylibxc_helper.py:translate_xc", "hotbit/parametrization/pylibxc_functionals.py:xc2libxc", "hotbit/parametrization/atom.py:KSAllElectron.calculate_energies"]}
{"id": "C127", "title": "Ionisation potential and electron affinity for a configuration and orbitals", "statement": "IP_EA started from the configuration of the element and the names of orbitals gives the results of C55; the ions have the stated numbers of electrons; orbitals that the atom does not have are refused; further arguments are passed on to the atom; ionization_potential and electron_affinity give the same quantities.", "quantifier": "all configurations, orbitals, numbers of electrons moved and energies", "why_tests_cant": "all real energies and numbers of electrons", "anchors": ["hotbit/parametrization/util.py:IP_EA", "hotbit/parametrization/util.py:ionization_potential", "hotbit/parametrization/util.py:electron_affinity", "hotbit/parametrization/atom.py:KSAllElectron.__init__"]}
{"id": "C128", "title": "Numerical checks of forces, fields and stress", "statement": "check_forces and check_field return central differences of energy and potential at the given structure, with an error of at most the bound of the third derivative times dx^2/6, and the largest deviation from the reported values, so that a small deviation means correct forces; check_virial returns the same for strain; the structure is afterwards as it was.", "quantifier": "all structures, cells, energies, step lengths", "why_tests_cant": "all smooth energies of any number of atoms", "anchors": ["box/fd_forces.py:check_forces", "box/fd_forces.py:check_field", "box/fd_forces.py:check_virial"]}
{"id": "C129", "title": "The forces on all atoms add up to zero", "statement": "Whenever get_forces returns, for a molecule or a crystal the forces on the atoms add up to zero; in wedges and chiral structures their components along the axis do. This holds with any charges, k-points, electronic width and repulsion, and also if the charges had not converged exactly.", "quantifier": "all structures, containers, k-points, tables of the right parity, charges and self-consistency runs", "why_tests_cant": "all real positions, tables and unboundedly many images and iterations; tests see rounding", "anchors": ["hotbit/aseinterface.py:Hotbit.get_forces", "hotbit/states.py:States.get_band_structure_forces", "hotbit/electrostatics.py:Electrostatics.gamma_forces", "hotbit/repulsion.py:Repulsion.get_repulsive_forces"]}
{"id": "C130", "title": "The forces exert no torque", "statement": "Whenever get_forces returns for a molecule, the total torque of the forces (the sum of position times force) is zero; for a wire the component along its period is zero, and in wedges and chiral structures the component along the axis. So a free molecule is not set spinning by the calculator. This holds with any charges, k-points, electronic width and repulsion, and also if the charges had not converged exactly.", "quantifier": "all structures, containers, axes about which the structure can be turned with its images, k-points, tables of the right parity, charges and self-consistency runs", "why_tests_cant": "all real positions, tables and unboundedly many images and iterations; tests see rounding", "anchors": ["hotbit/aseinterface.py:Hotbit.get_forces", "hotbit/states.py:States.get_band_structure_forces", "hotbit/interactions.py:Interactions.get_matrices", "hotbit/electrostatics.py:Electrostatics.gamma_forces", "hotbit/repulsion.py:Repulsion.get_repulsive_forces"]}
{"id": "C131", "title": "same_container tells whether two structures have the same symmetry", "statement": "same_container answers yes exactly if the two structures have the same container, hence the same symmetry operations with the same images and rotations, whichever atoms they hold; asking either of the two gives the same answer, and every structure has the same container as itself.", "quantifier": "all pairs of structures of all container types", "why_tests_cant": "all real cells and parameters of the containers", "anchors": ["hotbit/atoms.py:Atoms.same_container", "hotbit/containers/bravais.py:Bravais.__eq__", "hotbit/containers/slab.py:Slab.__eq__", "hotbit/containers/chiral.py:Chiral.__eq__", "hotbit/containers/wedge.py:Wedge.__eq__"]}
{"id": "C132", "title": "Paths between two structures are relaxed with the forces of the constrained path energy", "statement": "A path of images given to an optimiser has the forces minus the derivative of the total energy of all images plus the constraints of equal step lengths with their multipliers, and no force on its ends; interpolate() gives equal steps between unchanged ends; the deviations reported are those of the current path and add up to zero; positions set are the positions read.", "quantifier": "all numbers of images and atoms, energies, positions and multipliers", "why_tests_cant": "all differentiable energies and real positions, numbers of images and histories of locking", "anchors": ["box/barriers.py:MEP"]}
{"id": "C133", "title": "A larger cell with fewer k-points gives the same results", "statement": "Writing a periodic structure with a cell that is M times as large in one direction, with the atoms that extended_copy returns, and with the k-points to which the old ones fold, changes nothing: the larger calculation has a self-consistent solution with the same chemical potential and the same charges on all copies, its energies at a k-point are those of the small one at the M k-points that fold there, and its total energy is M times as large. The same holds for helical structures with units of several steps.", "quantifier": "all structures, containers with translations or screw operations, M, k-point sets, tables, charges", "why_tests_cant": "all real structures, sizes and unboundedly many images; tests compare a few supercells within rounding", "anchors": ["hotbit/aseinterface.py:Hotbit.get_potential_energy", "hotbit/interactions.py:Interactions.get_matrices", "hotbit/states.py:States", "hotbit/electrostatics.py:Electrostatics", "hotbit/repulsion.py:Repulsion", "hotbit/atoms.py:Atoms.extended_copy", "hotbit/containers/bravais.py:Bravais", "hotbit/containers/chiral.py:Chiral"]}
{"id": "C134", "title": "One sector of a symmetric structure gives the results of the whole structure", "statement": "A structure with an M-fold rotation axis can be calculated with the atoms of one sector in a wedge container (or a chiral wedge) and M angular momenta as k-points, or with all atoms and without the rotations. Both agree: to every self-consistent solution for the sector there is one for the whole structure with the same chemical potential and charges, its energies are those of all angular momenta together, and its total energy is M times that of the sector.", "quantifier": "all M, wedges around z or y with or without translations, chiral wedges, atoms, k-points, tables, charges", "why_tests_cant": "all real structures and numbers of sectors, wedges with infinitely many images; tests compare a few molecules within rounding", "anchors": ["hotbit/containers/wedge.py:Wedge", "hotbit/containers/wedgeyaxis.py:WedgeYAxis", "hotbit/containers/chiralwedge.py:ChiralWedge", "hotbit/atoms.py:Atoms.extended_copy", "hotbit/interactions.py:Interactions.get_matrices", "hotbit/electrostatics.py:Electrostatics", "hotbit/aseinterface.py:Hotbit.get_potential_energy"]}
{"id": "C135", "title": "The forces do not depend on the cell or sector with which a structure is written", "statement": "If a structure is written with a cell that is M times as large, or with all M sectors instead of one, the force on each copy of an atom is the force that the smaller calculation gives for the atom, turned by the symmetry operation that makes the copy; for translations it is the same force. So relaxing or moving the atoms of the smaller description follows the larger one.", "quantifier": "all structures, containers and M of C133 and C134, k-point sets, tables, charges, atoms and copies", "why_tests_cant": "all real structures, sizes and unboundedly many images; tests compare a few supercells within rounding", "anchors": ["hotbit/aseinterface.py:Hotbit.get_forces", "hotbit/states.py:States.get_band_structure_forces", "hotbit/interactions.py:Interactions.get_matrices", "hotbit/electrostatics.py:Electrostatics.gamma_forces", "hotbit/repulsion.py:Repulsion.get_repulsive_forces"]}
{"id": "C136", "title": "Results do not depend on the order of the atoms nor on the periodic images that are given", "statement": "Giving the atoms of a structure in another order, or replacing atoms by periodic images of themselves, changes no result: to every self-consistent solution there is one for the rewritten structure with the same chemical potential, the same charge on every atom, the same energies of the states at each k-point, the same total energy, and the same force on every atom (turned with the image if the operation turns it). The order of the k-points does not matter either.", "quantifier": "all structures and permutations, periodic images in the directions without ends, containers with commuting operations, k-point sets, tables, charges", "why_tests_cant": "all real structures, permutations and choices of images; tests compare a few", "anchors": ["hotbit/aseinterface.py:Hotbit.get_potential_energy", "hotbit/aseinterface.py:Hotbit.get_forces", "hotbit/interactions.py:Interactions.get_matrices", "hotbit/states.py:States", "hotbit/electrostatics.py:Electrostatics", "hotbit/repulsion.py:Repulsion", "hotbit/atoms.py:Atoms.transform"]}
{"id": "C137", "title": "Structures far from each other do not influence each other", "statement": "If several structures in one container are farther from each other than any interaction reaches, calculating them together gives the results of calculating each alone: solutions for each, with the same chemical potential, make up a self-consistent solution for all, with the charges that the atoms have in their own structure, the energies of the states of all structures together, the sum of the total energies, and on each atom the force that it has in its own structure.", "quantifier": "any number of structures of any size, containers with commuting operations, k-point sets, tables, charges, numberings of the atoms", "why_tests_cant": "all real structures, numbers of structures and images; tests see a few molecules", "anchors": ["hotbit/aseinterface.py:Hotbit.get_potential_energy", "hotbit/aseinterface.py:Hotbit.get_forces", "hotbit/interactions.py:Interactions.get_matrices", "hotbit/states.py:States", "hotbit/electrostatics.py:Electrostatics", "hotbit/repulsion.py:Repulsion"]}
{"id": "C138", "title": "Leaving out inverse k-points changes no result", "statement": "The set of k-points leaves out points whose inverse is there and doubles the weight of the inverse. The results are those of the whole mesh with equal weights: to every self-consistent solution for the kept points there is one for the whole mesh, and the other way round, with the same chemical potential, charges, total energy and forces. The energies of the states at a k-point are those at the inverse point, and at points that differ by full turns.", "quantifier": "all structures, containers, tables, charges, meshes, and all k-point sets of which one represents the other", "why_tests_cant": "all real structures and unboundedly many meshes; tests compare a few meshes within rounding", "anchors": ["hotbit/states.py:States.setup_k_sampling", "hotbit/states.py:States", "hotbit/interactions.py:Interactions.get_matrices", "hotbit/aseinterface.py:Hotbit.get_potential_energy", "hotbit/aseinterface.py:Hotbit.get_forces"]}
{"id": "C139", "title": "The result of a calculation is determined by the structure", "statement": "For a structure at a positive electronic temperature there is at most one self-consistent solution: any two converged calculations give the same chemical potential, energies of the states, density matrix, charges, total energy and forces, whatever the mixer, the first guess of the charges, the calculations made before, and the choice among degenerate states. It suffices that no set of charges on the atoms has a negative interaction energy; this is so for Gaussian charges with the widths that belong to the Hubbard parameters, in molecules and in sectors of symmetric molecules. Hence also the symmetry of a molecule is never broken: every converged calculation of the whole molecule gives the results of one sector.", "quantifier": "all structures and parameters, all pairs of converged calculations; without SCC all containers, with SCC all structures whose interaction energies are not negative, among them all molecules and all sectors of molecules with Gaussian charges", "why_tests_cant": "A test can only compare a few runs with a few mixers; that no other solution exists is a statement about all density matrices and all charges.", "anchors": ["hotbit/aseinterface.py: get_potential_energy, get_forces", "hotbit/solver.py: get_states, diagonalize", "hotbit/states.py: solve, mulliken", "hotbit/occupations.py: fermi, get_mu", "hotbit/electrostatics.py: get_Gaussian_gamma_correction, construct_Gamma_matrix, coulomb_energy", "hotbit/coulomb/direct_coulomb.py: get_potential"]}
{"id": "C140", "title": "Slow mixing always converges", "statement": "A structure at a positive electronic temperature always has a mixing constant that is small enough for the self-consistency cycle: with any mixing constant not above it, the cycle without memory converges from every first guess of the charges. That is, given enough iterations it returns a result and never reports that it is out of iterations. The largest such constant is of the order of the electronic temperature divided by the interaction of the charges. It suffices that no set of charges has a negative interaction energy, that eigenstates and chemical potentials are found, and that the limit of convergence is above the rounding of the occupations.", "quantifier": "all structures in cells, screw containers and wedges that close the circle, k-point sets, parameters, first guesses of the charges, both mixers with the memory of one iteration; all mixing constants below the bound", "why_tests_cant": "Whether the cycle ends for all first guesses is a statement about unboundedly many iterations; tests see a few structures and guesses that converge.", "anchors": ["hotbit/solver.py: get_states", "box/misc.py: AndersonMixer", "box/pulay.py: PulayMixer", "hotbit/occupations.py: fermi, occupy", "hotbit/states.py: mulliken", "hotbit/electrostatics.py: construct_h1"]}
{"id": "C141", "title": "Converged results are near the exact ones", "statement": "A structure at a positive electronic temperature has exactly one exactly self-consistent solution. The charges of every calculation that returns differ from those of the exact solution by at most a bound that is proportional to the limit of convergence (plus the rounding of the occupations) and depends on nothing but the structure and its parameters; likewise the total energy and the forces. So two calculations of one structure agree up to twice the bound, whatever the mixers, their parameters and memories, the number of iterations, the first guesses of the charges and the choice among degenerate states. It suffices that no set of charges has a negative interaction energy.", "quantifier": "all structures in cells, screw containers and wedges that close the circle, k-point sets and parameters; all calculations that return, with all parameters and memories of the mixers and all first guesses", "why_tests_cant": "A small residual need not mean a small error; that the error is bounded for all calculations and all histories of the mixers is a statement about all charges, and the exact solution is not something a program can compute.", "anchors": ["hotbit/aseinterface.py: get_potential_energy", "hotbit/solver.py: get_states", "box/misc.py: AndersonMixer", "box/pulay.py: PulayMixer", "hotbit/states.py: solve, mulliken", "hotbit/occupations.py: fermi, occupy", "hotbit/electrostatics.py: construct_h1, coulomb_energy"]}
