# Formal model of hotbit in Lean 4

## What this is

`lean/Verif` contains a shallow model of the Python (and some C) functions of
hotbit, written function by function and branch by branch, an independent
specification vocabulary, and theorems that relate the two. Every model
definition carries a comment with the file and lines it models.

Layout (namespace `Hotbit`):

* `Verif/Model/*.lean`  – the model. One file per source area. No proofs except
  what is needed to define things.
* `Verif/Lemmas/*.lean` – helper lemmas.
* `Verif/Props/*.lean`  – the property theorems (and only these), with the small
  specification predicates they use, and `example`s that show that the hypotheses
  are met by a concrete case. Names: `cNN_…` for property `CNN`;
  suffix `_partial` when only a part of the property is proved;
  `cNN_…_fails` when the theorem is a refutation with a concrete witness.

## Trusted base

* Lean 4.33.0's kernel and the Mathlib library it checks.
* Axioms: only `propext`, `Classical.choice`, `Quot.sound`. No axioms of our own,
  no `sorry`, no `native_decide`, no `bv_decide`.
* The reading of the Python code: the theorems are about the model. Nothing was
  executed; the tie to the code is the citation at each definition.

## Modelling conventions

* Python floats and numpy floats are exact real numbers (`ℝ`), complex arrays are
  over `ℂ`. Rounding, overflow, NaN are not modelled. `np.Inf` range ends are a
  separate constructor. Where the code compares with a tolerance, the tolerance
  is kept in the model.
* Python ints are `ℤ`/`ℕ`. Python `round` on floats is round-half-to-even.
* Exceptions are values: `Except Exn α` where `Exn` names the Python exception
  class. Where state was already changed when the exception is raised, the model
  returns the state together with the exception.
* `numpy` arrays are functions on `Fin n` or `List`s.
* External routines (LAPACK eigen-solvers, `scipy.optimize.brentq`,
  `numpy.linalg.solve`, file system) are parameters of the model; a theorem that
  needs something about them has it as an explicit hypothesis (for example
  "the eigenvectors are S-orthonormal").
* Loops become structural recursion or folds.

## Plan per property

| id | property | what is modelled and how it is proved |
|---|---|---|
| C01 | Symmetry operations compose like the group they represent | Model cell/pbc as 3x3 reals and booleans, every transform/rotation branch by branch over the reals; prove additivity from the angle-addition formulas. |
| C02 | Every symmetry operation is a rigid motion with the advertised rotation part | Same model; orthogonality via R^T R = 1, det, affine decomposition, norm preservation. |
| C03 | A physical wedge has exactly M distinct operations that represent every rotation once | Integer residue argument (Int.emod) plus periodicity/injectivity of (cos,sin) modulo 2*pi. |
| C04 | The declared 'equivalent' operation of DoubleChiral and Slab is the square of the glide operation | Model transform/get_table; compute S1*S1; needs 2*pi periodicity; rounding modelled as Python round. |
| C05 | Illegal symmetry operations are refused and legal ones never are | Model the guard with extended-integer bounds and Except results. |
| C06 | extended_copy returns exactly the requested images, in order, or refuses | Model the op-list construction and the accumulation loop; the one-copy clause is false for wedges with M>=3 (range start -n//2 = -1), proved with a witness; the rest proved. |
| C07 | The container type survives being stored in the cell | Exact-arithmetic model incl. Python negative indexing and IndexError; round trip proved; witnesses that other multiples decode wrongly or crash. |
| C08 | Container parameters are independent read/write slots | Lens laws on the cell matrix; Wedge.set modelled in full as state+exception; atomicity violated (parameters are written before they are checked): negation with witness. |
| C09 | Copying atoms preserves the container | Model constructors; proved for Bravais, Chiral, Wedge, DoubleChiral, ChiralWedge, ChiralGeneral; refuted for WedgeYAxis with periodic y (constructor resets pbc) and Slab with non-zero x (not stored). |
| C10 | k-point weights are a probability distribution over inversion classes | Model the triple loop with the running (k,wk) lists; prove the sum invariant by induction under the no-double-match condition and prove that condition for the mesh; inversion predicate is a parameter. |
| C11 | The automatic mesh is the Monkhorst-Pack mesh | Model linspace over the reals; closed form by algebra; phase statement via Complex.exp periodicity. |
| C12 | Impossible k-samplings are refused | Guard logic modelled as Except; last clause violated: the code tests k>1e-10 not \|k\|>1e-10, so negative components pass (witness), partial theorem for non-negative. |
| C13 | Occupations are physical | Real-analysis on 2/(exp((e-mu)/w)+1). |
| C14 | occupy() conserves the number of electrons or raises | Continuity+strict monotonicity (IVT, limits). Bracketing failure exhibited for a one-level spectrum. |
| C15 | The self-consistency loop only returns converged charges | Loop modelled with fuel = maxiter over abstract step functions; induction. |
| C16 | Charge mixing conserves total charge | Stateful model with history lists; invariant by induction over call sequences; linear solver abstract. |
| C17 | Mixing damping bounds every step | Max-norm argument on the chop step. |
| C18 | Convergence reports are truthful | History invariant: stored fmax list equals the list of per-call residuals. |
| C19 | Mixer selection honours the user's choice | Case analysis on a model of the argument type. |
| C20 | The density matrix is Hermitian, positive and counts the occupations | Complex matrices over Fin n; algebra of finite sums. |
| C21 | Mulliken charges add up to the system's charge | Block sums over the orbital partition; uses C20 and C23; witness that changing 'charge' after initialization makes the check fail. |
| C22 | Band-structure energy is the occupation-weighted sum of eigenvalues | Finite-sum algebra on generalized eigenvectors. |
| C23 | Orbital bookkeeping is a partition | Fold model with accumulators, invariants by induction. |
| C24 | Free-atom populations are between 0 and 2 and add up to the valence | Model with rational/real populations; sum over 1, 4, 9 orbitals; violations recorded with witness where the formula fails. |
| C25 | A cached result always belongs to the atoms it is returned for | State machine with el.atoms, geometry, solved-map, cached values; invariant for histories without set_atoms/set/failures; concrete refutation with set_atoms. |
| C26 | A failed calculation does not corrupt later results | Same state machine with failure events; refuted: geometry is overwritten before the failure, the ground-state stamp is not; also the timer left running makes the next call raise. Partial: safe when the next call is for a structure different from the last solved one is also examined. |
| C27 | Calculator parameters are frozen after initialization | Case analysis; map update laws; invariant over histories. |
| C28 | Electrostatic Hamiltonian and energy are consistent | Functions over Fin n; uses orbital partition. |
| C29 | Hamiltonian and overlap matrices are Hermitian at every k-point | Model the pair loop i<=j, phases and the conjugate assignment. |
| C30 | Slater-Koster rules respect exchange parity and rotations | Model the C tables entry by entry; a spec built from cubic harmonics and their spherical gradients; polynomial identities under \|n\|=1; calculus for the gradient. |
| C31 | Repulsive energy and forces are consistent | Finite sums over pairs and images; HasDerivAt for clusters. |
| C32 | Pair potentials are attached to exactly the named pair | Model the zero-padded key; injective below 10000; collision witness at (1000,10000)/(10001,0); unit bug witness. |
| C33 | van der Waals mixing rules are symmetric and consistent | Field algebra/inequalities; last clause refuted (TypeError) by model of Element. |
| C34 | The neighbour list is sound, complete and symmetric | List model; membership characterization; symmetry through the group law C01. |
| C35 | Slater-Koster table files are resolved as documented | Association-list model with abstract file existence. |
| C36 | Element-pair keys are split correctly | Character-list model; proof for all well-formed symbols. |
| C37 | Hermitization helpers do what they say | Matrix algebra. |
| C38 | Energy gap, HOMO and LUMO agree with the spectrum | Fold model with unbound-variable error; invariant. |
| C39 | Timers are well nested and accumulate every interval | Tree state machine; induction over well-nested words; restart elsewhere in the tree violates containment (witness). |
| C40 | Spline interpolation is an exact natural cubic spline | Model forward/back sweep; prove tridiagonal solution by induction; knot conditions by algebra. |
| C41 | Spline derivatives and range behaviour | HasDerivAt; left-edge violation witness for MultipleSplineFunction. |
| C42 | Trilinear interpolation is exact at nodes and bounded by the data | Real floor arithmetic; offset-grid violation witness. |
| C43 | Direct Coulomb potentials, energy and forces are consistent | Sum algebra; cache state machine: refuted for cell changes. |
| C44 | Multipole index is a gap-free bijection | Triangular-number arithmetic. |
| C45 | Telescoped multipoles sum the potential of the promised block of image cells | Loop invariants for the telescoping and local loops; blocks of n^j cells tile the block of n^k cells (base-n digits); error bound of C82 summed over blocks. Refuted for even n, different k in two directions, finite symmetry directions and rotating symmetries with the centre off the axis. |
| C46 | Mulliken analysis is additive | Block sums; last clause refuted (valence subtraction in only one of them). |
| C47 | Linear response: neutral transitions, real frequencies, sum rule | Model run with an abstract eigensolver that returns orthonormal eigenvectors; Rayleigh quotients for the bound; orthogonality for the sum rule. Last clause refuted (units). |
| C48 | Fortran-style records are expanded exactly and writers are inverse to readers | Token-level model; round trip refuted for rows ending in zeros, proved otherwise. |
| C49 | File-type detection classifies by extension | String model; violation: AttributeError for .spl and unknown extensions. |
| C50 | Work distribution assigns each item exactly once | Fold model; permutation invariant. |
| C51 | Number-theory helpers are correct | Compare with Nat.divisors / Nat.gcd. |
| C52 | phival returns the polar angle in [0,2*pi) | Real branch model with atan; tolerance branches stated exactly. |
| C53 | rotation_matrix is the rotation about the given axis | Matrix algebra with \|axis\|=1 after normalisation. |
| C54 | Gamma functions and their derivatives agree | HasDerivAt; erf defined by its integral; limits. |
| C55 | Ionisation/affinity extrapolation is exact for quadratic energies | Ring identity. |
| C56 | Tail smoothing is continuous and ends at zero | Model fit; first exponent proved, higher exponents refuted (coefficients of one fit are used with the exponents of another). |
| C57 | Repulsion read from an skf file equals the spline in the file | Segment lookup model; off-by-one refuted at first point after a knot. |
| C58 | Number formatting/parsing helpers | Integer/char-list models; violations with witnesses. |
| C59 | Charge prediction preserves total charge | State model; linear extrapolation algebra. |
| C60 | Solid harmonics and multipole moments have their textbook values | Generating recurrences of the solid harmonics, induction on l; comparison with Rodrigues' formula. |
| C61 | Creating an Atoms object keeps the lattice vectors | Model of construction including the marker written into cell[0,0]; proved for Bravais, refuted for Slab (the marker overwrites the lattice vector). |
| C62 | Plain cells are never mistaken for a container | Complete description of what the reader does for each multiple of the marker; refuted by concrete cell edges; the proved part is C07's Bravais clause. |
| C63 | Each container's operations are the documented motions | Closed formulas in cylindrical coordinates, one theorem per container. |
| C64 | rotation(n) is the rotation that transform(.,n) applies to directions | Proved for nine containers; refuted for TwistAndTurn, whose rotation uses one mean tangential direction. |
| C65 | Band-structure forces obey Newton's third law | Model/Density.lean bandForces over the orbital blocks; proved from Hermiticity of rho/rhoe and cyclicity of the trace |
| C66 | The neighbour list matches its documentation | Refuted: more than five images per direction are silently dropped, the vector points from j to i, and an atom on a rotation axis is its own neighbour at distance zero; the true part (orthogonal Bravais cells, cutoff at most five periods) proved. |
| C67 | The cutoff screens the Coulomb interaction smoothly to zero | Screening factor proved; continuity at the cutoff refuted (erfc(1) is not zero). |
| C68 | Text and vector conversion helpers lose nothing | Model on lists; the back conversion raises TypeError in Python 3 (refutation) and one-character lines lose their character (refutation). |
| C69 | Rotation angle and axis recovered from a matrix reproduce it | Frame t,a,t x a; expand in the frame; use C52. |
| C70 | Reciprocal k-points are converted to the same Bloch phases | Direct algebra on the modelled transform. |
| C71 | Orbitals are carried along by the symmetry operation | Compare the SAGE generated table with the representation computed from quadratic forms, entry by entry; container case analysis; half turns about y refuted. |
| C72 | The derivative arrays are the derivatives of the matrices | Directional version of the Slater-Koster gradient, chain rule through the image positions, sums over images. |
| C73 | Slater-Koster tables are assembled consistently from the files | Model the loop over pairs and orbitals with abstract spline interpolation; linearity of the spline gives parity; grids of unequal files are mixed (refuted); null tables raise TypeError. |
| C74 | Interpolated paths contain the given points | Induction over the parts; points of parts shorter than half a step are missing (refuted), fewer points than wanted (refuted). |
| C75 | The mixers return the best combination of remembered charges | Refine the state to the list of remembered calls; normal equations give orthogonality, hence least squares. |
| C76 | Unphysical charges are refused | Direct characterisation of the loop. |
| C77 | Shifting multipole moments is exact | Addition theorem of the solid harmonics; invariant 'the arrays hold the moments of these charges'. |
| C78 | Rotating multipole moments is exact | Recurrence of the rotation matrices from the derivatives of the harmonics. |
| C79 | Local expansions are shifted exactly; potential and field are read off correctly | Addition theorem; derivative of the harmonics. |
| C80 | Far charges enter the local expansion through their Taylor series | Iterated derivatives of the irregular harmonics. |
| C81 | The multipole expansion converges to the Coulomb potential with a known error | Legendre recurrence of the terms, Cauchy-Schwarz bound, differential equation of the generating function. |
| C82 | Moments of distant charges convert into a local expansion with a known error | Two-centre expansion of 1/r in solid harmonics (addition theorem), bounds of the truncated double sum. |
| C83 | Cached multipole expansions are never stale | Invariant over the history of updates; refuted for changes of the cell, and after an update that raised. |
| C84 | Broadening conserves weight | Gaussian and Cauchy integrals; list induction. |
| C85 | Local and projected densities of states add up to the density of states | Populations of C46, peaks of C84; with a window that cuts states off, projected and plain total density differ everywhere (refuted). |
| C86 | Atom and bond energies add up to the total energy; Mayer bond orders to the populations | Block sums over atom pairs; trace identities; rho S rho = 2 rho. The bond order of complex states has an imaginary part and raises AssertionError (refuted). |
| C87 | Covalent energies of all pairs add up to the covalent energy | Pair parts of a symmetric sum, partition of the pairs i<=j; rescaling of Gaussians. Missing angular momenta raise (refuted). |
| C88 | Slater-Koster tables keep their distances through skf files | Line by line reading proved for all files; conversion shifts the table by up to one step, rows ending in zero cannot be read again, the second reader returns one distance less than rows (refuted). |
| C89 | Every basis orbital has the on-site energy of its shell | Proved for skf files and for shells in the order s, p, d; elm files of Ti, Fe and Ni refuted (d energies go to s and p orbitals). |
| C90 | find_value returns the value of the first line with the key | Text model against a grammar of key lines and data sets; values with a second equals sign are cut off (refuted). |
| C91 | Parameter files are read as written, errors are reported | Uses C90. A malformed repulsion silently becomes zero and the general table X_X_table raises TypeError (refuted). |
| C92 | The element data base is consistent | The loop is modelled and run on the whole table in the kernel. |
| C93 | The exchange-correlation potential is the derivative of the energy density | Real analysis on the formulas as coded; at the clipping density 1E-90 the energy density jumps (refuted there). |
| C94 | A radial state solves the discretised radial equation with the right number of nodes | Invariants of inward and outward integration, joined at the turning point; induction over the turns. Nodes are counted inside the turning point only; the outermost start value has the wrong sign, so there is one more sign change at the edge (refuted). |
| C95 | Radial integration, density and Hartree potential of the atom | Finite sums, induction over the running sums lo and hi. |
| C96 | An atom is solved for exactly its states, or an error is raised | Case analysis for names, induction over the self-consistency loop with an abstract turn. Names with n >= 10 cannot be read back and such states are ignored (refuted); with itmax <= 6 no atom is ever solved. |
| C97 | Angular parts of the Slater-Koster integrals are the integrals of spherical harmonics | Orthogonality of the azimuthal factors by integrating trigonometric sums; the constants by square root identities. |
| C98 | The grid of the two-centre integrals covers the half plane once | Areas as double integrals, case analysis of the corners. The centre lies above the plane for one kind of element (refuted) and no points remain close to twice the range, an IndexError (refuted). |
| C99 | The Slater-Koster table holds the integrals of the right orbitals, symmetric where it should be | Reflection of the grid, sums over lists. Distances just below twice the range raise IndexError, and a second run with timing raises AssertionError (both refuted). |
| C100 | Written Slater-Koster tables are read as they were, to seven digits | Model of decimal formatting and of float(), text lemmas of C90 and C91. |
| C101 | Spherical harmonics of the analysis are the textbook ones | Associated Legendre functions specified by the Rodrigues formula; the 49 coded formulas compared with them; orthonormality for all l and m from the Legendre differential equation and partial integration. |
| C102 | Angular parts of atomic orbitals are the real spherical harmonics | Trigonometric identities; at the nucleus the s orbital is returned as zero (refuted). |
| C103 | The grid spans the unit cell with the asked spacing | Real arithmetic on floors and roundings. A hexagonal cell passes the check and the spacing given in Angstrom is used as Bohr (both refuted). |
| C104 | A basis orbital on the grid is the orbital of all periodic images of the atom | Induction over images. The imaginary part of the phases is dropped (refuted away from the zone centre). |
| C105 | States and densities on the grid | Induction over bands and k-points. Occupations are missing in the density and windows are not measured from the Fermi level (both refuted). |
| C106 | Setting the parameters of a container is read back | Case analysis over the given arguments. Copying from a container, the slab offset, the type argument and the mode of tubes always fail, and sphere axes are not normalised (refuted). |
| C107 | Scaling atoms with the container scales the whole periodic structure | Closed forms of all images in cylinder coordinates. A chiral wedge with a twist does not scale its images when the angle changes (refuted). |
| C108 | External potentials act on the electrons, the energy and the forces | Induction over histories, spectral theorem for the shift. Energy and forces do not contain the potential, and potentials added later do not invalidate stored results (refuted). |
| C109 | The dielectric function sums all excitations up to the cutoff | Model of the band windows of all k-points, induction over pairs. Default cutoff, repeated call and excess energies are refuted by witnesses. |
| C110 | Fitting data of a repulsion are those of the structures | Induction over histories; energies of the pair model as functions of the bond length. Ninth automatic colour, default comment, text saving, structures without bonds and bonds to own images are refuted by witnesses. |
| C111 | The fitted repulsion integrates the smoothed derivative up to the cutoff | Grouping of sorted lists by cells, floors of means, telescoping integrals; scipy's spline, quadrature and interpolation are parameters. Close data across a cell boundary, order, second fit and derivative beyond the cutoff are refuted. |
| C112 | A written repulsion is the one used in calculations | The written lines are fed to the model of the reader. Inputs that already have a repulsion and writing without a fit are refuted. |
| C113 | Graphene and ribbons are honeycombs with the stated edges | Honeycombs specified by distances of neighbours; the structures are brought to strips of one honeycomb by division with remainder. Integer bond lengths and zigzag_ribbon (length above one along x, any length along z) are refuted. |
| C114 | Nanotube data are those of the rolled-up honeycomb | Primitive vectors specified by scalar products; shortest translation by the gcd of 2n+m and n+2m. |
| C115 | Chiral nanotubes are the endless tube, each site once | The plane is rolled up by a map whose fibres are the multiples of the chiral vector; screw operations become lattice translations; division with remainder gives existence and uniqueness. |
| C116 | Nanotubes in a periodic cell are the endless tube | Points of the cell counted by unimodular coordinates; the windows left out by the tolerances are shown empty up to n+m = 33, sharp by the (33,1) tube that has a hole. Data ignore R; CNT_list always raises (refuted). |
| C117 | Parameter files of a directory are found | Dictionaries as functions, loops as folds; symbols are one or two letters. Pairs of symbols of different lengths are never found, directories with names of different lengths and all but the last skf directory are lost (refuted). |
| C118 | Analyses, charges and grids belong to the current structure | The state of the C25 model extended by the stored analysis objects and the grid; an invariant ties every stored object to the solved structure. set_atoms makes analyses of another structure, a returned (stored) energy does not suffice, non-SCC charges raise, the grid can be set only once (refuted). |
| C119 | Ewald sums give the potential of the periodic charges | Finite sums over boxes of integers converge to lattice sums; the derivative of the complete sum with respect to the splitting vanishes by Poisson summation up to a constant that neutral charges cancel; the limit of vanishing splitting is the direct sum. Proved for cells with orthogonal sides; for skewed cells the reciprocal vectors are integers times the rows, not the columns, of the inverse cell, and the choice of an image changes the result (refuted). |
| C120 | Every container can be made; the saddle container acts as a group | Loops as iterates; a product of fifty equal small turns is the turn by the sum of angles. Saddle, Gaussian and ContainerTest1 cannot be made, and steps of the saddle in different directions never commute (refuted). |
| C121 | The states are the solutions of the generalised eigenvalue problem | LAPACK as a parameter with its documented promises, shown to be satisfiable; energies unique by the characteristic polynomial of the Cholesky-transformed Hamiltonian. With one orbital the overlap is overwritten by its root, and an overlap that is not positive definite may return uninitialised energies (refuted). |
| C122 | Band energies at given k-points | Matrices at opposite points are conjugate by a homomorphism through the construction loops; energies unique by C121; merging of opposite mesh points by a loop invariant. With SCC the default misses the electrostatic part, without SCC h1=True raises AttributeError, and the phases for drawing states are overwritten (refuted). |
| C123 | Element data come from the named files and the given directory | Names as lists of characters, dictionaries as functions, loops as folds; the process as a state machine with the environment variable. Another element's file is accepted, a missing extension and Element objects raise, and the directory is the one passed last to any calculator (refuted). |
| C124 | The forces are minus the gradient of the energy | Composition of the models of matrices, states, charges, electrostatics and repulsion; Hellmann-Feynman theorem for the generalised problem with self-consistent charges; independence of the choice of states in degenerate levels; derivative of the entropy. The reported energy has no entropy term, so with smearing the forces are not its gradient: a dimer is a witness. |
| C125 | Energy and forces do not depend on where and how the structure is placed | The whole calculation composed from the models; orbitals turn with block-diagonal orthogonal matrices, so the matrices are related by them, the density matrix is (although degenerate states are not), and with it charges and forces, by induction over the iterations. |
| C126 | Functionals from libxc give the energy and its potential | pylibxc as a parameter; first variation of the energy by differentiating under the integral and integrating by parts. For the 17 functionals in two parts, PBE among them, the energy is a NameError (refuted). |
| C127 | Ionisation potential and electron affinity for a configuration and orbitals | The atom calculation as a parameter, dictionaries as lists. Arguments that IP_EA sets itself raise TypeError when passed on, and the two separate functions always raise ImportError (refuted). |
| C128 | Numerical checks of forces, fields and stress | Loops as folds over updated structures; Taylor bound by three monotonicity arguments. check_virial leaves cell and positions strained (refuted). |
| C129 | The forces on all atoms add up to zero | Derivative matrices are anti-Hermitian, density and energy density Hermitian and h1 symmetric, so the total of the band forces is its own negative; repulsion and Coulomb sums cancel in pairs of an image and its inverse. Holds for every outcome of the loop. |
| C130 | The forces exert no torque | Differentiating the rotation rule of the Slater-Koster elements gives the generator of rotations on the orbitals; the derivative of the matrices along a slow turn is a commutator with it, whose trace with the density matrices vanishes because the states solve H c = e S c. Repulsion and Coulomb forces are central and cancel in pairs. |
| C131 | same_container tells whether two structures have the same symmetry | The comparison of each container class as written; a positive answer is proved to give the same operations. Bravais lattices raise, moved atoms count as another container, the label of the container can be mistaken and slabs within tolerance are not transitive (refuted). |
| C132 | Paths between two structures are relaxed with the forces of the constrained path energy | The object as a state with its methods as functions; derivatives of the step lengths. Positions set while locked go on to be used for the deviations, multipliers in an array raise ValueError and a new path has no forces (refuted). |
| C133 | A larger cell with fewer k-points gives the same results | Copies of an orbital transform with Bloch phases into block-diagonal form: the phases of the M k-points are orthogonal, so states, charges, potentials and energies of the small cell make up a solution for the large one. Assumes that the scanned images include all within the cutoff and that the Coulomb sum has a cutoff. |
| C134 | One sector of a symmetric structure gives the results of the whole structure | As for larger cells, with the operations of the wedge taken modulo a full turn. The orbitals of each copy are turned along with their sector. Without cutoff of the Coulomb sum for finite structures, with cutoff otherwise. |
| C135 | The forces do not depend on the cell or sector with which a structure is written | The derivative matrices act on the Bloch waves of the copies as those of the small cell with their directions turned, so traces with the density matrices agree; repulsion and Coulomb forces are sums over the same images. Assumes in addition to C133 and C134 that the derivatives of the tables of both orders of the elements belong to the same integrals. |
| C136 | Results do not depend on the order of the atoms nor on the periodic images that are given | As for larger cells, with one copy of the structure and an image, a rotation and a Bloch phase for each atom. Assumes that the scanned images include all within the cutoff for both choices of atoms; images under the turns of a wedge are not included. |
| C137 | Structures far from each other do not influence each other | The matrices and their derivatives are made of blocks, one for each structure; the states of all blocks, sorted by energy, are the states of the whole. With SCC the Coulomb interaction must have a cutoff: without one, charges act at all distances. |
| C138 | Leaving out inverse k-points changes no result | The matrices at the inverse point are the complex conjugates, so are the states and density matrices; energies, charges and forces only contain real parts. The kept points of the mesh with their weights represent the whole mesh. No assumptions about the structure are needed. |
| C139 | The result of a calculation is determined by the structure | Two solutions: the trace of the difference of the density matrices times the difference of the Hamiltonians is not positive (monotone occupations, same number of electrons, generalized eigenvectors complete), but equals twice the interaction energy of the difference of the charges. So the occupations agree wherever states overlap, and the density matrices agree. Positivity of the Gaussian interaction from the integral of Gaussians over the width, whose kernels are positive (Schur product with overlaps). |
| C140 | Slow mixing always converges | The charges move against the change of the potential, at least in proportion to the square of their change (occupations are Lipschitz and monotone in the energies; sum rules of the generalized eigenstates). So each damped step shrinks the residual in the norm of the interaction energy, and then in the usual norm. The tolerance of the chemical potential and the cutoff of the exponential enter as noise. The option to chop large steps and memories of more than one iteration are not covered. |
| C141 | Converged results are near the exact ones | The exact solution exists: damped iteration with exact occupations is a contraction. A calculation that returns has charges whose residual is below the limit of convergence; as charges move against the potential, the error is at most a multiple of the residual. The energy error follows from the gap between the two density matrices, which the same inequality bounds; that of the forces from density matrix, energy-weighted density matrix (overlap inverse times Hamiltonian times density matrix), potential and charges. |

## Axioms

Checked with `#print axioms` for every theorem named in `MANIFEST.json`:

* no axioms: `c117_directories_fails`, `c15_zero_fails`.
* only propext: `c117_nothing`, `c123_bare`, `c123_directory_fails`, `c123_extension_fails`, `c123_object_fails`, `c123_wrong_element_fails`, `c35_no_environment`, `c35_reverse_default`, `c41_lengths`, `c48_error`, `c97_names`.
* only propext, Quot.sound: `c117_skf_directories_fails`, `c123_symbol`, `c15_nonscc`, `c36_short`, `c44_size_value`, `c51_gcd`, `c51_gcd_negative_fails`, `c68_indentation_partial`, `c99_select`.
* All the others (784 theorems): propext, Classical.choice, Quot.sound.

## What is modelled

The table is made from the citations in the model files.

| model file | what | source files cited |
|---|---|---|
| Affinity | Ionisation potential and electron affinity | atom.py, data.py, util.py |
| Analysis | Mulliken analysis, densities of states and bond energies | mix.py, mulliken.py |
| Ask | Analysis objects, grids and charges of a calculator (`hotbit/aseinterface.py`) | aseinterface.py, grids.py, mulliken.py, states.py |
| AtomSolver | The atom program (`hotbit/parametrization/atom.py`) | atom.py |
| Atoms | `hotbit/atoms.py`: construction, container marker, parameters, copies | atoms.py, bravais.py, chiral.py, chiralgeneral.py, chiralwedge.py, doublechiral.py, elements.py, slab.py, sphere.py, twistandturn.py, wedge.py, wedgeyaxis.py |
| Auxil | `hotbit/auxil.py`, energy gap and frontier states | aseinterface.py, auxil.py, states.py |
| Bands | Band energies | aseinterface.py, electrostatics.py, elements.py, grids.py, interactions.py, solver.py, states.py |
| Barriers | Paths between two structures | barriers.py |
| Basic | Shared vocabulary of the model |  |
| Calculator | The calculator: caching of results, parameters, failures | aseinterface.py, atoms.py, electrostatics.py, elements.py, grids.py, pairpotential.py, repulsion.py, states.py, timing.py |
| ContainerSet | `container.set` of the containers other than `Wedge` | atoms.py, bravais.py, chiral.py, chiralgeneral.py, chiralwedge.py, doublechiral.py, slab.py, sphere.py, twistandturn.py, wedgeyaxis.py |
| Containers | Containers (generalized unit cells) and `hotbit.Atoms` | atoms.py, bravais.py, chiral.py, chiralgeneral.py, chiralwedge.py, doublechiral.py, elements.py, mix.py, slab.py, sphere.py, twistandturn.py, wedge.py, wedgeyaxis.py |
| Coulomb | Direct summation of the Coulomb interaction (`hotbit/coulomb/direct_coulomb.py`) | direct_coulomb.py |
| Database | Searching a directory for parameter files: `database_from_path` | aseinterface.py |
| Density | Density matrices, Mulliken charges, band-structure energy and forces: `hotbit/states.py` | solver.py, states.py |
| Dielectric | The dielectric function (`hotbit/aseinterface.py:636-701`) | aseinterface.py |
| Eigen | Solving the states at the k-points | geig.c, solver.py |
| Electrostatics | Charge-density corrections and the electrostatic Hamiltonian (`hotbit/electrostatics.py`) | electrostatics.py |
| ElementFiles | Which files the element data are read from | aseinterface.py, element.py, elements.py, interactions.py |
| Elements | Orbital tables: `Elements._elements_initialization` and its accessors, `hotbit/elements.py` | element.py, elements.py |
| Environment | External potentials (`hotbit/environment.py`) | electrostatics.py, elements.py, environment.py |
| Ewald | Ewald summation (`hotbit/coulomb/ewald_sum.py`) | ewald_sum.py |
| FdForces | Finite differences of energy and potential | fd_forces.py |
| Fitting | Fitting of repulsions (`hotbit/parametrization/fitting.py`) | fitting.py, interpolation.py, md.py |
| Grids | Orbitals and densities on a grid: `hotbit/grids.py` | elements.py, grids.py |
| GroundState | From the atoms to energy and forces | aseinterface.py, direct_coulomb.py, electrostatics.py, occupations.py, solver.py, states.py |
| Helpers | Small helpers of `box/mix.py` and `box/timing.py` | mix.py, timing.py |
| Interpolation | Trilinear interpolation and interpolated paths, `box/interpolation.py` | interpolation.py |
| KPoints | k-point sampling: `States.setup_k_sampling`, `hotbit/states.py:79-175` | auxil.py, mix.py, slab.py, states.py |
| LibXc | Exchange-correlation functionals from libxc | atom.py, pylibxc_functionals.py, pylibxc_helper.py, pylibxc_interface.py |
| LinearResponse | Model of hotbit/analysis/lr.py | lr.py |
| Matrices | Construction of the Hamiltonian and overlap matrices | elements.py, interactions.py |
| Mix | Helpers from `box/mix.py` needed by the containers | mix.py |
| Mixers | Charge mixers: `box/misc.py` (Anderson), `box/pulay.py`, `box/dummymixer.py`, `box/buildmixer.py` | buildmixer.py, dummymixer.py, misc.py, pulay.py |
| Multipole | Multipole moments and their transformations | multipole.c, multipole.py, spherical.c |
| MultipoleExpansion | The telescoped multipole expansion (`hotbit/coulomb/multipole_expansion.py`) | multipole_expansion.py, neighbors.py |
| Nanotube | Nanotubes: `box/systems.py`, lines 221-424 | systems.py |
| Native | Element data and native hotbit files (`.elm`, `.par`) | data.py, dftb.py, element.py, native.py |
| Neighbors | Neighbour lists (`hotbit/neighbors.py`) | neighbors.py |
| Occupations | Occupations: `hotbit/occupations.py` | occupations.py |
| OrbitalRotation | How symmetry operations rotate orbitals | chiralgeneral.py, chiralwedge.py, interactions.py, wedge.py, wedgeyaxis.py |
| PairTerms | Repulsion, pair potentials and van der Waals terms | element.py, elements.py, interpolation.py, pairpotential.py, repulsion.py, vdw.py |
| ParWriter | Decimal numbers as text, and the writer of `.par` files | slako.py |
| ParamUtil | Helpers of the parametrization: smooth tails, ionization potential and electron affinity | util.py |
| Saddle | Making containers by name, and the saddle container | __init__.py, atoms.py, gaussian.py, saddle.py |
| SameContainer | Comparing containers | atoms.py, bravais.py, chiral.py, chiralgeneral.py, chiralwedge.py, doublechiral.py, slab.py, sphere.py, twistandturn.py, wedge.py, wedgeyaxis.py |
| Skf | The DFTB `.skf` file format: reader and writer | dftb.py, hb2skf.py, util.py |
| SlakoTable | `hotbit/parametrization/slako.py`: making Slater-Koster tables | atom.py, slako.py |
| SlaterKoster | Slater–Koster transformation rules | interactions.py, slako.c |
| Solver | The self-consistency loop: `Solver.get_states`, `hotbit/solver.py:61-100` | solver.py |
| Splines | Cubic splines of `box/interpolation.py` | interpolation.py |
| Systems | Graphene, ribbons and nanotubes (/repo/box/systems.py) | systems.py |
| Tables | Slater-Koster tables: choice of files and reading | interactions.py, interpolation.py, native.py |
| Text | Text files: the words of a line, Fortran records, `key=value` files | __init__.py, fortran.py, mix.py |
| Timing | `box/timing.py`: nested timers | timing.py |
| TotalEnergy | The total energy and the forces | aseinterface.py, electrostatics.py, elements.py, interactions.py, occupations.py, pairpotential.py, repulsion.py, solver.py, states.py |
| Wavefunctions | Angular functions: `hotbit/analysis/wavefunctions.py` | wavefunctions.py |

## What is not modelled

* Rounding, overflow, NaN, running time, memory; parallel runs and timers except
  `box/timing.py` itself.
* Printing, plotting and output text (`greetings`, `plot*`, `__repr__`, `info`,
  `write_readable`, VTK files, `box/convergence_plotter.py`).
* `hotbit/analysis/wavefunctions.py` from line 250 on (the old grid analysis),
  `hotbit/wfpropagation.py`, `hotbit/parametrization/fitting.py:739-883`
  (`ParametrizationTest`), `hotbit/io/hb2skf.py:16-168`, `box/barriers.py`,
  `box/md.py` (only the parts the fitting uses), `box/vtk.py`, `box/distort.py`,
  `box/random.py`, the MPI test scripts, and the `test` directories.
* ASE: its `Atoms` object is modelled only by the positions, symbols, cell, flags
  and the few methods the code calls. LAPACK, scipy (`brentq`, `splrep`, `fmin`)
  and libxc are parameters with hypotheses stated where they are used.
* The multipole and Slater–Koster C code is modelled by its formulas; memory
  management in C is not.

## Disagreements between the code and what a user would expect

Each of these is a theorem with a concrete witness.

* `c06_one_copy_fails`: The last clause of C06 is violated: one copy of a wedge of angle `2π/5` is the image under operation -1, not the original.
* `c08_atomic_fails`: C08 atomicity is violated: `set(angle=4)` raises `AssertionError` and yet leaves the angle at 4, so a later calculation would use it.
* `c09_slab_fails`: C09 is violated by Slab: the glide vector `x` is reset to zero in the copy.
* `c09_wedgeY_fails`: C09 is violated by WedgeYAxis: the copy loses the periodicity in y.
* `c12_negative_fails`: C12 is false for explicit lists: a negative component along a non-periodic direction is accepted.
* `c12_slab_fails`: C12 is false for Slab: any tuple sampling, also `(1,1,1)`, raises `AttributeError` (the class has no `get_table`), unless the temperature check comes first.
* `c14_bracket_fails`: C14 is false: one level, half an electron, any temperature. A solution exists, but both ends of the search interval have too many electrons, so `occupy` fails with `ValueError` with any root finder that insists on a sign change (as `brentq` does).
* `c15_zero_fails`: C15 is false for `maxiter = 0`: the loop body never runs and the states left from before the call are returned as if converged.
* `c21_recharge_fails`: Consequence for `calc.set('charge',c)` after initialization (which neither changes the number of electrons nor marks results as outdated): every later Mulliken evaluation raises.
* `c25_pair_potential_fails`: **C25 fails for pair potentials added later**: they do not invalidate stored forces.
* `c25_ranges_fails`: **C25 fails when the symmetry changes**: a calculator used for a wedge of `2π/3` and then for a wedge of `2π/5` returns for the second an energy evaluated with the three images of the first.
* `c25_set_atoms_fails`: **C25 fails with `set_atoms`**: forces returned for `B` after any calculation of `A` can differ from the forces of `B`.
* `c25_symbols_fails`: **C25 fails for other elements**: unlike `set_atoms`, `get_potential_energy` and its relatives do not check that the elements are those the calculator was initialized with.
* `c26_fails`: **C26 fails** (concretely): the fourth call returns wrong forces for `A`.
* `c28_single_atom_fails`: C28 fails for one isolated atom: `get_gamma` raises `TypeError` (the solver returns `None` instead of a zero matrix), although potential and energy are well defined.
* `c31_image_range_fails`: **C31 (images beyond the matrix cutoff, violated).** The images are chosen by the cutoff of the Slater-Koster tables. A repulsion of longer range misses images: here two images at distance `2`, within the range `3` of the potential, contribute nothing because the image list was made with cutoff `1`.
* `c31_relabel_fails`: **C31 (order of elements, violated).** If the files of the pairs `AB` and `BA` differ, which `Interactions` allows, the repulsive energy depends on the numbering of the atoms.
* `c32_collision_fails`: **C32 (more than 10000 atoms, violated).** A potential for atoms `1000` and `10000` also acts between atoms `10001` and `0`: both have the key `100010000`.
* `c32_derivative_fails`: **C32 (force of a potential in eV and Å, violated).** The derivative used in the forces is not the derivative of the energy: energy and forces are inconsistent.
* `c32_shared_range_fails`: **C32 (common range, violated).** All potentials share the largest range: adding a potential for atoms `0` and `2` changes the energy between atoms `0` and `1`, whose own range is `1`.
* `c32_units_fails`: **C32 (units, violated).** With units eV and Å the value used at `r` Bohr is the given one at `r/Bohr` Å, not at `r·Bohr` Å.
* `c33_c6_between_fails`: **C33 (mixed C6, lower bound violated).** The mixed coefficient can be smaller than both atomic ones, even if these are equal.
* `c33_slater_kirkwood_fails`: **C33 (combination rule, violated).** The mixed coefficient is not the one of the Slater-Kirkwood rule: the weights in the denominator are exchanged.
* `c33_user_parameters_fails`: **C33 (parameters given by the user, violated).** `vdw_parameters` for a present element forgets its `C6`, which `setup_vdw` then asks for: it raises `TypeError` instead of using the parameters.
* `c37_diagonal_fails`: C37: a diagonal that is not real makes the result non-Hermitian.
* `c37_rectangular_fails`: C37: a row vector counts as symmetric, whatever its elements.
* `c38_half_filled_fails`: C38: with the default thresholds a half filled band is both HOMO and LUMO.
* `c38_no_homo_fails`: C38: if no level is at or below the Fermi level, the first state is returned as HOMO instead of an error.
* `c38_same_state_fails`: C38: a level exactly at the Fermi level is returned both as HOMO and as LUMO.
* `c39_children_fails`: A timer first started inside `a` and restarted outside: it stays a child of `a` and its time exceeds its parent's, although the calls are properly nested.
* `c39_summary_fails`: `summary()` stops the top-level timer as well; every later `start` raises.
* `c40_last_node_fails`: **C40, refuted at one point.** The interpolant does not pass through the last data point: there the call returns zero, whatever the data.
* `c41_below_fails`: **C41, refuted below the range.** Below the first grid point the spline of the matrix elements is not zero: it returns a multiple of the first and last data values.
* `c41_left_end_fails`: (see the statement)
* `c42_origin_fails`: **C42, refuted for other origins.** The index is computed as if the grid started at zero: at the first node of the grid `1,2,3` the value returned is not the stored one.
* `c43_cell_change_fails`: C43 fails: after a change of the cell (same positions and charges) `update` keeps the old result.
* `c43_failed_update_fails`: C43 fails: an update that raised leaves the object claiming to hold results for the structure it could not evaluate; repeating the call succeeds and returns the values of the earlier one.
* `c45_centre_fails`: C45 fails for a rotating operation when the centre is off the axis (the default is the mean of the positions): after one pass the moments are not those of the three cells about the stored centre.
* `c45_even_fails`: C45 fails for even `n`: with `n=2`, `k=3` cell `-1` counts twice and cell `3` not at all (the documentation promises `n**k = 8` cells).
* `c45_finite_fails`: C45 fails for a finite symmetry direction (here a wedge with four sectors, periodic in z): of the cells two periods away only the sector of the atoms themselves is summed.
* `c45_unequal_fails`: C45 fails for different `k` in two periodic directions: with `n=3`, `k=(3,2,1)` cell `(0,2,0)` is one of the `3²` cells in the second direction, but it is missed.
* `c46_atoms_fails`: C46 refuted in its last clause: for a hydrogen molecule with one electron on each atom `get_atoms_mulliken()[0]` is zero, `get_atom_mulliken(0)` is one.
* `c47_reread_fails`: C47 refuted for spectra read from a file: the file holds energies in eV, which are taken for Hartree. One excitation of 1/4 Hartree comes back as `27^2/4` instead of `27/4` for a conversion factor of 27.
* `c48_trailing_fails`: C48 fails for rows ending with zero, as every row of a Slater-Koster table with a cutoff does at its end: the row 5, 0 comes back as 5, 0, 0.
* `c49_spl_fails`: C49 fails for `.spl` files, which the code means to treat as `skf`: every such name ends in `AttributeError`, in all three reading functions.
* `c50_idle_fails`: C50: a cpu may stay idle although there is one item for each.
* `c51_gcd_negative_fails`: C51: a negative argument can give a negative result.
* `c56_end_fails`: A table below the threshold is returned as it is, with a last value different from zero.
* `c56_smooth_fails`: **C56 fails for steep tables.** When the first exponent would change the sign, the coefficients of the next fit are used with the exponents of the first: the returned values lie on no curve of the announced form through the two retained points, for any exponent.
* `c57_knot_fails`: C57 fails with the default grid: the point 1.005 is the first one after the knot 1.0025; the file gives (0.0025)^3 there, the table has the value zero of the exponential below the knot.
* `c57_single_fails`: C57: a spline with a single interval (whose only line is the eight numbers of the last piece) cannot be read.
* `c58_appendix_directory_fails`: C58: a dot in a directory name is taken for the dot of the extension: the appendix changes the directory.
* `c58_extension_fails`: C58: without a dot the last letter of the name is lost and the whole name is the extension.
* `c58_human_readable_fails`: C58: the total time printed by the timer is always given in full hours, with zero minutes and zero seconds.
* `c58_sixty_seconds_fails`: C58: the seconds field can be 60.
* `c61_slab_fails`: C61 is violated for Slab: the x-component of the first lattice vector is overwritten by the type marker, so with a 4 Å lattice the translation is wrong.
* `c62_bravais_cell_fails`: C62 is violated: an orthorhombic cell of edge 12.3454321 Å cannot be used, reading its type raises `IndexError`.
* `c64_twist_fails`: C64 is false for TwistAndTurn: `rotation(n)` is taken at one fixed position on the circle, so elsewhere it is not the rotation an atom's surroundings undergo. Whatever the bending angle, the image of a displaced point is displaced in the direction opposite to `rotation(n)·v`.
* `c66_axis_fails`: C66: an atom on the axis of a wedge is reported as its own neighbour at distance zero (the code then divides by zero).
* `c66_complete_fails`: C66: "return neighbors up to this cutoff" fails for short cells: the image seven cells away is within the cutoff but not reported.
* `c66_direction_fails`: C66: "the normal vector pointing to the neighbor" fails: every vector of the list points the other way, from the neighbour to the atom.
* `c67_cutoff_jump_fails`: C67 fails: the interaction is not "smoothly forced to zero at this distance": the energy of two unit charges jumps when their distance crosses the cutoff.
* `c68_indentation_fails`: A line with a single character loses it.
* `c68_vector_mode_fails`: A flat array can never be converted back to a list of vectors.
* `c71_half_turn_fails`: **C71 is false for half turns about y** (a `WedgeYAxis` container with opening angle `π`, whose only non-trivial operation is `R = halfTurnY`): with d orbitals present, whatever the angles the container returns, the code takes the operation for the reflection `z ↦ -z` and leaves `p_x` unchanged, although the rotation reverses it.
* `c73_mixed_grids_fails`: **C73, refuted.** If the tables of the two orders have different distances (and equal length), the overlap integrals are interpolated on the wrong distances: at a tabulated distance the value is not the tabulated one.
* `c73_null_fails`: **C73, refuted.** The documented way to switch an interaction off never works: the null file has an `X_X_table`, which raises.
* `c74_fewer_points_fails`: **C74, refuted.** The path can have fewer points than asked for: for points at 0, 1.4, 2.8 and 4 and five points wanted, four are returned.
* `c74_missing_point_fails`: **C74, refuted.** A part shorter than half the step is dropped: for the points 0, 1, 1.2 and three points on the path, the last given point is not on the returned path.
* `c83_cell_fails`: C83 fails when the cell changes (here to twice the length): the potential of the old cell is returned.
* `c83_error_fails`: C83 fails after an error: `k=2` is refused for directions that are not periodic, but the second call with the same atoms and charges succeeds, and the potential does not exist.
* `c85_window_fails`: C85 refuted for windows that leave out states, with a concrete case: water with six states of energies 0, 1, ..., 5 and the window from 0 to 2.
* `c86_mayer_fails`: C86 refuted for complex wave functions: with the two states above (orthonormal, the first doubly occupied) at a single k-point the bond order of two hydrogen atoms raises `AssertionError`.
* `c88_convert_fails`: C88 fails for converted files: a table given at the distances `x0 + j*h` is written so that its `j`-th row is read back at the distance `(⌊x0/h⌋ + 1 + j) * h`, which is larger than the true one; it is off by a whole grid step whenever `x0` is a multiple of `h`.
* `c88_second_reader_fails`: C88 fails for `read_skf_table`: for a file of two elements with `n` full rows it returns `n` rows but `n-1` distances, and gives the first row the distance zero where the other reader gives `dx`.
* `c88_unreadable_fails`: C88 fails for tables that go to zero: if one row ends with zero, the file written from the table cannot be read.
* `c89_elm_fails`: **C89 fails for elm files of elements whose d shell is listed first.** The s orbital gets the energy of the d shell, whenever it differs from those of the others.
* `c90_equals_fails`: **C90 fails for a value with an equals sign:** the rest of the value is dropped.
* `c90_onestr_fails`: **C90 fails for a text in a last line that has no end-of-line character:** its last character is lost.
* `c91_general_fails`: **C91 fails for files with a general table.** If the file has the key `X_X_table`, the reader raises `TypeError` for every pair, whatever else the file holds.
* `c91_malformed_fails`: **C91 fails for malformed repulsions.** Whenever the table cannot be read (a word that is no number, rows of different lengths, an empty table, or no key at all), no error is reported: the repulsion is zero at 0, 1, 2 and 3.
* `c93_clip_fails`: At the clipping limit itself the energy density has a jump, so it has no derivative there.
* `c94_outer_node_fails`: The start value at the outer end has the wrong sign: between the last two grid points the function always changes its sign, so it has at least one node more than is counted and than the state should have.
* `c96_name_large_fails`: **C96.** Beyond that a name is made, but it cannot be read back: `'10s'`.
* `c98_centre_fails`: **C98.** But the centre need not be below the plane: of an element with only its lowest corner below, it is always above.
* `c98_empty_fails`: **C98.** Distances just below twice the range, for which integrals are asked, always fail: there are no points, and the program stops with an `IndexError`.
* `c99_range_end_fails`: **C99.** Making a table which includes a distance just below twice the range fails: `IndexError` (C98).
* `c99_timing_fails`: **C99.** With timing switched on, the same table object can be run only once: the timer of the ranges is never stopped, and starting it again raises an `AssertionError`, whatever the clock shows.
* `c102_nucleus_fails`: C102 fails at the nucleus: the angular part of an s orbital is the same in all directions, but at the nucleus itself zero is returned.
* `c103_cube_fails`: C103 fails for cells that are not rectangular but have zeros above the diagonal: a hexagonal cell is accepted.
* `c103_spacing_fails`: C103 fails for the unit of the spacing: in a cell of 10 Å a spacing of 0.2 Å gives points less than 0.11 Å apart.
* `c104_bloch_fails`: C104 fails for complex phases: a Bloch orbital with the phase `i` is returned as zero.
* `c105_density_fails`: C105 fails for the electron density: one doubly occupied state gives its density once, half the density of its two electrons.
* `c105_window_fails`: C105 fails for windows: with the Fermi level at -5 eV, a state exactly at the Fermi level does not count in the window from -1 to 1 eV around it.
* `c106_axes_fails`: C106: the rotation axes are not normalised: two half turns around the x axis are a full turn, `(1,1,0)` leaves every point where it is; with the first axis given as `(2,0,0)` it does not.
* `c106_copy_fails`: C106: parameters of another container cannot be copied: `set(container=...)` raises `AttributeError` for each kind with parameters in the cell, whatever the containers.
* `c106_mode_fails`: C106: a `mode` for `TwistAndTurn` raises `KeyError`, after the other parameters were set.
* `c106_slab_fails`: C106: the offset of a slab can never be set.
* `c106_type_fails`: C106: `set_container` with the type of the container raises `TypeError`, with another type `AssertionError`.
* `c107_chiralWedge_images_fails`: C107: with a twist they are not: an atom on the x axis and its image one height above get the same angles as before, although the angle of the wedge is halved.
* `c108_energy_fails`: C108 fails for the energy: one atom with one orbital, in a uniform potential. Its band energy is lowered by the potential (as that of an electron should), but the energy that is reported for the same state and charges stays.
* `c108_forces_fails`: C108 fails for the forces: atoms so far apart that their orbitals and charges do not interact feel no force in any external potential, whatever their charges.
* `c108_stale_fails`: C108 fails for potentials added later: there are numerics without (`P`) and with (`P'`) a potential, with different forces, such that the forces asked for after the potential was added are those without it.
* `c109_again_fails`: C109: after an error of any kind its timer stays on, so all further calls fail.
* `c109_cutoff_fails`: C109: an example with three bands, one of them full. Although the cutoff is 1 the excitation of energy 2, to the first band above the cutoff, is there.
* `c109_default_fails`: C109 fails without a cutoff: the default arguments always raise an error, for every set of bands whose energies span less than the built-in limit of `1e10` Hartree.
* `c110_color_fails`: **C110 fails for the ninth point without a colour**: after eight calls with automatic colours the next one raises an error, and so does every later one.
* `c110_default_fails`: **C110 fails without comment and label**, the default arguments: after the energies were calculated an error is raised.
* `c110_images_fails`: **C110 fails for structures with bonds between images of one atom**: a chain with one atom and one bond per cell has the repulsive energy `V(a)` per cell, but two bonds are counted, so that its fitted derivative is half of what keeps the chain in equilibrium.
* `c110_no_bonds_fails`: **C110 fails for structures without bonds within the cutoff**: an error is raised, but a point without value was added, and every fit with it raises an error.
* `c110_text_fails`: **C110 fails for saving as text**: this always raises an error.
* `c111_beyond_fails`: **C111 fails beyond the cutoff.** The potential is zero there, but its derivative is not: for data on a line, which any smoothing spline gives back, the slope goes on beyond the cutoff.
* `c111_close_fails`: **C111 fails for close data.** Data as close as one likes are not joined if a multiple of `1E-4` Å is between them, though data with almost the same distance make the spline impossible: the spline gets both of them.
* `c111_order_fails`: **C111 fails: the order.** The order is made smaller if there are not enough data, but the data are counted before data of one distance are joined: any two or more data of one distance stop the fit with `TypeError`, unless the order is one.
* `c111_refit_fails`: **C111 fails when fitting again.** The order and the smoothing of the first fit stay, whatever data are appended before the next one: after a fit with `n` data the order is never more than `n`, and after a fit without data no fit is possible any more (`TypeError` or the error of the data); the smoothing is that of the number of points of the first fit.
* `c112_existing_fails`: **C112 fails with an input having a repulsion.** The repulsion read from the written file is the old one, whatever was fitted.
* `c112_unfitted_fails`: **C112 fails without a fit.** The error comes after the file was begun: `TypeError` if no fit was tried (and no smoothing given), `AssertionError` otherwise; the file left is read as one with zero repulsion.
* `c113_integer_fails`: **C113 fails for a whole bond length.** A bond length which is an integer, as in `graphene(2,2,1)`, raises `TypeError`.
* `c113_zigzag_ribbon_x_fails`: **C113 fails for `zigzag_ribbon` along x.** With two units or more the cell is one unit long, so that atoms lie on top of images of other atoms.
* `c113_zigzag_ribbon_z_fails`: **C113 fails for `zigzag_ribbon` along z.** The cell is too long (`3 R` in place of `√3 R` for each unit): some atom has a single neighbour at the bond length, whereas all atoms of a ribbon have two or three.
* `c116_data_fails`: **C116 fails.** The data of a tube with another bond length are not those of the tube.
* `c116_hole_fails`: **C116 fails.** The smallest tubes not covered are incomplete: the (33,1) tube has a hole.
* `c116_list_fails`: **C116 fails.** The list of nanotubes cannot be had, and so no tube of it.
* `c117_directories_fails`: **C117 fails for element files in directories with names of different lengths:** the tables of C and H are there but not found.
* `c117_mixed_fails`: **C117 fails for symbols of different lengths:** for elements such as C and Au no table is ever found, whatever files the directory holds.
* `c117_skf_directories_fails`: **C117 fails for skf files in several directories:** all directories but the last are ignored.
* `c118_cached_fails`: **C118: the energy being known is not enough.** After the energy of `A` and the solution of `B`, the energy of `A` is returned at once, but an analysis then raises an `AssertionError` telling that the electronic structure is not solved.
* `c118_charges_nonscc_fails`: **C118: no charges without self-consistency.** With `SCC=False` charges are never returned: the ground state is solved, and then an `AttributeError` is raised (unless the solution failed).
* `c118_grid_fails`: **C118 fails for the grid.** `set_grid(h)` followed by `set_grid(h')` returns without complaint, and the grid still has spacing `h`.
* `c118_set_atoms_fails`: **C118 fails with `set_atoms`.** After the energy of `A` and the solution of `B`, `set_atoms(A)` makes the calculator hold `A`, whose energy is marked solved: the analysis is made without complaint, from the electronic structure of `B`.
* `c119_skew_fails`: In a skewed cell, two unit charges of opposite sign: replacing the second atom by its neighbouring image changes the converged potential of the first.
* `c120_made_fails`: Three of the container classes cannot be made.
* `c120_order_fails`: Whenever both directions are really bent, a step in the first and one in the second direction lead to different points depending on their order; so the operations cannot all compose by adding their numbers.
* `c121_indefinite_fails`: An overlap matrix that is not positive definite: no error is raised, the energies are what the memory happened to hold, and there are no states.
* `c121_single_fails`: One orbital with overlap `s`: the caller's overlap matrix is replaced by `√s`, and unless `√s` is one up to the tolerance the result is an `AssertionError`.
* `c122_default_fails`: With SCC and a uniform potential `c`, the default `h1=False` misses `c` in all the energies at the own points of the calculation.
* `c122_drawing_fails`: After band energies at the zone centre were asked for, the states of a calculation with two points `0`, `k` are drawn with the phases of the zone centre, or not at all.
* `c122_nonscc_fails`: Without SCC asking for the electrostatic part raises `AttributeError`.
* `c123_directory_fails`: Two calculators with directories `a` and `b`, made one after the other: the first one uses `b`. And a calculator made without a directory uses that of another calculator, not the variable the user had set.
* `c123_extension_fails`: "If extension '.elm' is omitted, it is assumed": it is not.
* `c123_object_fails`: "Items can also be elements directly": they cannot, for any object.
* `c123_wrong_element_fails`: Another element's file is accepted: atoms of carbon are calculated as silicon.
* `c124_smearing_fails`: **C124 (smearing, violated).** For the dimer all requirements are met, and yet minus the force is not the derivative of the reported energy.
* `c126_exc_fails`: For 17 of the 22 functionals, among them PBE and BLYP, the energy is a `NameError` for every density, so that no total energy of an atom can be had.
* `c127_arguments_fails`: An output file, a configuration or restart files cannot be passed on: `TypeError` for every atom.
* `c127_separate_fails`: The two separate functions cannot be used at all: the table they import does not exist.
* `c128_virial_fails`: Afterwards cell and positions stay strained: every structure with a volume is changed by the check.
* `c131_bravais_fails`: **C131 fails for ordinary lattices**: the comparison of a Bravais structure with itself, and with any other of the same periodic directions, raises `AttributeError`.
* `c131_label_fails`: **C131 fails without the label**: a Bravais lattice whose first cell entry happens to be the number that marks `Chiral` has, for the chiral structure, the same container, while the lattice does not agree and its operations are others.
* `c131_moved_fails`: **C131 fails in the other direction**: the same container with an atom in another place is reported as a different container, although all symmetry operations agree.
* `c131_transitive_fails`: **C131 fails as an equivalence for slabs**: because of the tolerance, the first and the second, and the second and the third slab have the same container, but not the first and the third.
* `c132_array_fails`: **C132 fails for multipliers in an array**: when `set_lambdas` was given a numpy array, as root finders pass it, the next guess raises `ValueError` for three or more images.
* `c132_stale_fails`: **C132 fails after a lock**: positions given while the path was locked are remembered for ever. Once released and moved, the path still reports the deviations of those old positions.
* `c132_unset_fails`: **C132 fails before multipliers are set**: the forces of a new path cannot be asked for.

## Tests against wrong programs

`seeded/LOG.jsonl` has one line per edit of the model that was tried in a scratch copy. How to read it:

- `theorems_failed` names the declarations in which the rebuild reported errors. Modules that depend on a failed one are not
  built, so when a helper lemma breaks first the property theorems resting on it are not listed. Of the first 355 lines, 182 name
  no `cNN` theorem. Such a line shows that the proof no longer goes through, not by itself that the statement became false.
- The later lines (with a field `outcome`) come from builds stopped 20 s after the first error.
- Up to line 355 only caught edits were logged when they were tried. Lines 356-366 add the surviving first attempts of the
  second to fifth rounds from the saved output of the runs. The output of the first round was not kept, so survivors of that
  round, if any, are missing.
- In those rounds a build that hit the time limit of 1200 s without an error was reported as surviving.
