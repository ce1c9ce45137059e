{"id": "C01", "title": "Work distribution is a balanced, contiguous partition", "statement": "MPI.distribute(size, bounds=True, chunks=c) returns c block sizes that add up to size, whose entries differ by at most one with the larger blocks first, and c+1 bounds that start at 0, end at size, never decrease and assign every index 0 <= i < size to exactly one process.", "quantifier": "for every size >= 0 and every number of chunks >= 1", "why_tests_cant": "Every pair (size, chunks) is a different input; unit tests run on one or a few processes and a handful of sizes.", "anchors": ["elphmod/MPI.py: distribute"]}
{"id": "C02", "title": "Scatter/compute/gather equals the serial computation", "statement": "Every routine that scatters points with the sizes from distribute, evaluates a pure function point by point on each process and gathers the pieces returns exactly the list the serial loop would return, whatever the number of processes and in whatever order the processes advance.", "quantifier": "for every list of points, every pure function, every number of processes >= 1 and every complete interleaving of the processes", "why_tests_cant": "Tests run with one process count and whatever schedule the machine happens to produce.", "anchors": ["elphmod/dispersion.py: sample, dispersion", "elphmod/bravais.py: resize", "elphmod/diagrams.py: phonon_self_energy", "elphmod/MPI.py: distribute"]}
{"id": "C03", "title": "Round-robin distribution loses and duplicates no work", "statement": "Where work items are dealt out by 'item number modulo number of processes equals my rank' and the results are summed or collected over all processes, the total equals the serial total, and every item is processed by exactly one process.", "quantifier": "for every number of items, every number of processes >= 1, every item-wise contribution in a commutative monoid", "why_tests_cant": "Depends on all process counts; tests are run serially.", "anchors": ["elphmod/dos.py: hexDOS, double_delta", "elphmod/bravais.py: wigner", "elphmod/elph.py: Model.supercell"]}
{"id": "C04", "title": "Process matrix gives every q point exactly one owner column", "statement": "MPI.matrix(nq) arranges the processes such that (rank within column, rank within row) is unique, the processes that are first in their column form one row, and every index 0 <= iq < nq handed out by distribute to a row rank is owned by exactly one column.", "quantifier": "for every communicator size >= 1 and every number of q points >= 1, including sizes that do not divide each other", "why_tests_cant": "Needs all pairs of process and q-point counts.", "anchors": ["elphmod/MPI.py: matrix, distribute", "elphmod/elph.py: sample"]}
{"id": "C05", "title": "Shared-memory communicators: rank 0 is node rank 0 and image rank 0", "statement": "For communicators returned by MPI.shm_split, comm.rank == 0 holds exactly when node.rank == images.rank == 0, (node, node.rank) identifies a process, and the processes with node rank 0 form one images communicator containing exactly one process per node.", "quantifier": "for every number of processes and every assignment of processes to nodes", "why_tests_cant": "The statement is about arbitrary cluster topologies that a test machine does not have.", "anchors": ["elphmod/MPI.py: shm_split"]}
{"id": "C06", "title": "Shared-array broadcast makes rank-0 data visible everywhere", "statement": "After the documented protocol (rank 0 writes, node leaders broadcast over images, barrier) every process reads the data written by rank 0 from the array returned by MPI.shared_array, with shared memory, without it, and for every node layout.", "quantifier": "for every number of processes, every node layout, every array content before the protocol and every order in which the node leaders receive the message", "why_tests_cant": "Depends on node layouts and message schedules.", "anchors": ["elphmod/MPI.py: shared_array, SharedArray.Bcast, load"]}
{"id": "C07", "title": "Buffer returns the last completely written object; crashes are not masked", "statement": "MPI.Buffer(name).get() returns None before the first set() and the most recently set object after completed set() calls, for any sequence of get/set. If the process dies inside set(), a later get() must return either the old or the new object.", "quantifier": "for every history of get/set calls and every crash point inside set()", "why_tests_cant": "Crash points and histories cannot be enumerated by tests.", "anchors": ["elphmod/MPI.py: Buffer.get, Buffer.set", "elphmod/md.py: Driver.save, Driver.load"]}
{"id": "C08", "title": "Progress bar prints exactly its width and never blocks or overlaps", "statement": "A StatusBar that is created while none is active and updated `count` times writes exactly `width` '=' characters followed by one newline, never more, ignores further updates and then allows the next bar; at every moment of every history at most one bar is active; silent bars (count 0, other bar active, low verbosity, rank > 0) write nothing.", "quantifier": "for every count >= 1, every width, every interleaved history of constructor and update calls of any number of bars", "why_tests_cant": "Histories of nested bars and all integer ratios width/count cannot be tested exhaustively.", "anchors": ["elphmod/misc.py: StatusBar"]}
{"id": "C09", "title": "group() partitions points into connected neighbourhoods", "statement": "misc.group(points, eps) returns nonempty, pairwise disjoint index groups that cover all indices; two indices are in the same group exactly if a chain of points with consecutive component-wise distances below eps links them. (The documented 'maximal distance between points in the same group' is eps; this stronger reading is also examined.)", "quantifier": "for every finite list of points of any dimension and every eps", "why_tests_cant": "Correctness of the relabelling depends on the order in which groups merge, for every point cloud.", "anchors": ["elphmod/misc.py: group", "elphmod/dos.py: double_delta"]}
{"id": "C10", "title": "Trapezoidal integration weights", "statement": "misc.differential(x) returns weights whose sum is x[-1] - x[0] and whose dot product with function values is the trapezoidal rule; for sorted x all weights are nonnegative.", "quantifier": "for every list of at least two real sample points (sorted or not, equidistant or not) and all function values", "why_tests_cant": "An identity over all sample lists of all lengths.", "anchors": ["elphmod/misc.py: differential", "elphmod/diagrams.py: green_kubo_conductivity"]}
{"id": "C11", "title": "split() implements the distributive law", "statement": "misc.split expands a comma/brace expression into the list of all its alternatives, like the distributive law: the alternatives of a product are all concatenations (the last bracket varying slowest), the alternatives of a bracketed list are the alternatives of its items, from left to right, without surrounding white space.", "quantifier": "for every properly nested expression of any depth and length", "why_tests_cant": "Nesting depth and number of alternatives are unbounded.", "anchors": ["elphmod/misc.py: split", "elphmod/el.py: proj_sum"]}
{"id": "C12", "title": "Lookup of matrix elements by lattice vector", "statement": "misc.vector_index returns the position of the first row equal to the vector and None if there is none; Model.t, Model.C, Model.WR and Model.gR return the stored block of that first match and zero otherwise, and for duplicate-free lattice vectors this is the coefficient of that lattice vector in the Fourier sum.", "quantifier": "for every list of lattice vectors and every query vector", "why_tests_cant": "All lists and queries.", "anchors": ["elphmod/misc.py: vector_index", "elphmod/el.py: Model.t", "elphmod/ph.py: Model.C", "elphmod/elel.py: Model.WR", "elphmod/elph.py: Model.gR"]}
{"id": "C13", "title": "Extremum of a parabola through three points", "statement": "misc.minimum(x1, x2, x3, y1, y2, y3) returns the x coordinate of the extremum of the parabola through the three points, when they are not collinear, for calls with six arguments.", "quantifier": "for all real coordinates with pairwise different abscissas", "why_tests_cant": "A real-number identity; and the argument handling depends on the command line of the calling program.", "anchors": ["elphmod/misc.py: minimum"]}
{"id": "C14", "title": "XSF files: reading what was written returns the same grid", "statement": "read_xsf(write_xsf(data)) returns the data grid that was written, with data[i, j, k] at the same position.", "quantifier": "for every grid shape and every grid content", "why_tests_cant": "All shapes and contents; symmetric or cubic test data hides index-order errors.", "anchors": ["elphmod/misc.py: read_xsf, write_xsf"]}
{"id": "C15", "title": "Cube files: the origin of the grid is returned", "statement": "read_cube returns as r0 the origin given in the third line of the file, on every process.", "quantifier": "for every cube file and every number of processes", "why_tests_cant": "Needs all files; uninitialised memory may accidentally hold the right numbers in a test.", "anchors": ["elphmod/misc.py: read_cube"]}
{"id": "C16", "title": "RESPACK-format Coulomb matrices survive a write/read round trip", "statement": "Reading the file written by elel.Model.to_Wmat with misc.read_dat_mat returns the same lattice vectors and the same matrix elements at the same orbital indices.", "quantifier": "for every number of lattice vectors >= 1, every number of orbitals >= 1 and all contents", "why_tests_cant": "Sizes are unbounded; the block structure is inferred from blank lines.", "anchors": ["elphmod/elel.py: Model.to_Wmat", "elphmod/misc.py: read_dat_mat"]}
{"id": "C17", "title": "supercell() lists every class of unit cells exactly once", "statement": "bravais.supercell(N1, N2, N3) returns N = |det|, and a duplicate-free list of N integer points, one for each class of lattice vectors modulo the supercell lattice (the internal assertion never fails).", "quantifier": "for all integer vectors N1, N2, N3 with nonzero determinant, of either handedness", "why_tests_cant": "Infinitely many integer matrices; the bounding-box search and the count are only right for all of them by an argument.", "anchors": ["elphmod/bravais.py: supercell"]}
{"id": "C18", "title": "to_supercell() is the unique decomposition into supercell vector and cell", "statement": "bravais.to_supercell(R, supercell) returns (R', i) with R = R'1 N1 + R'2 N2 + R'3 N3 + cells[i]; it always succeeds, it is the only such pair, and the map is a bijection between lattice vectors and pairs.", "quantifier": "for every integer lattice vector and every nonsingular integer supercell", "why_tests_cant": "Infinite domain.", "anchors": ["elphmod/bravais.py: to_supercell"]}
{"id": "C19", "title": "images() is the full point-group orbit", "statement": "bravais.images(k1, k2, nk, angle) terminates and returns exactly the set of mesh points reachable from (k1, k2) by rotations and the reflection of the lattice modulo nk; being an image of one another is an equivalence relation, and the set depends only on the class.", "quantifier": "for every nk >= 1, all integers k1, k2 and angles 60, 90, 120", "why_tests_cant": "All mesh sizes; termination and closure need the group structure.", "anchors": ["elphmod/bravais.py: images"]}
{"id": "C20", "title": "irreducibles() picks the first point of every orbit", "statement": "bravais.irreducibles(nk, angle) contains exactly one point of every symmetry orbit of the mesh, namely the first in row-major order, and the orbits of the irreducible points cover the whole mesh without overlap.", "quantifier": "for every nk >= 1 and angles 60, 90, 120", "why_tests_cant": "All mesh sizes.", "anchors": ["elphmod/bravais.py: irreducibles"]}
{"id": "C21", "title": "Symmetry completion never alters given data", "statement": "bravais.complete fills missing (NaN) values only with values found at other mesh points and never changes a value that was present.", "quantifier": "for every mesh with any pattern of missing values and every angle", "why_tests_cant": "All patterns of missing data.", "anchors": ["elphmod/bravais.py: complete, symmetries"]}
{"id": "C22", "title": "stack() returns the most localised equivalent points", "statement": "bravais.stack returns points that differ from the inputs by integer multiples of the period, and no other choice of such multiples gives a smaller variance.", "quantifier": "for every number of points, all real points, every positive period, compared against all integer shifts", "why_tests_cant": "The minimality claim quantifies over infinitely many alternatives.", "anchors": ["elphmod/bravais.py: stack"]}
{"id": "C23", "title": "Linear interpolation reproduces the data at mesh points", "statement": "bravais.linear_interpolation(data)(i, j) equals data[i mod N, j mod M] for all integers i, j, for 1D data and 2D data with angles 60, 90, 120, and the interpolant is periodic with the shape of the data.", "quantifier": "for all data arrays of any shape, all integer indices (including negative) and all real arguments for the periodicity", "why_tests_cant": "All shapes and indices; all real arguments.", "anchors": ["elphmod/bravais.py: linear_interpolation"]}
{"id": "C24", "title": "Linear interpolation stays within the data and is continuous and affine-exact", "statement": "Interpolated values are convex combinations of the surrounding data points (never outside their range), the two triangle formulas agree on the shared edge, and data that is an affine function inside a cell is reproduced exactly.", "quantifier": "for all data and all real arguments, angles 60, 90, 120 and 1D", "why_tests_cant": "Real-valued quantification.", "anchors": ["elphmod/bravais.py: linear_interpolation"]}
{"id": "C25", "title": "Resizing is consistent with interpolation at the new mesh points", "statement": "bravais.resize to the same shape returns the data unchanged; refining by an integer factor keeps all original points; with periodic=False the first and last points are kept; the result does not depend on the number of processes.", "quantifier": "for all data, all shapes, all refinement factors and all process counts", "why_tests_cant": "All shapes and process counts.", "anchors": ["elphmod/bravais.py: resize"]}
{"id": "C26", "title": "to_Voronoi() returns exactly the nearest equivalent points", "statement": "bravais.to_Voronoi(k1, k2, nk, angle) returns a nonempty set of points equivalent to (k1, k2) modulo nk; each is at least as close to the origin as every other equivalent point and all nearest equivalent points are returned.", "quantifier": "for every nk >= 1, all integers k1, k2, angles 60, 90, 120, compared with all (infinitely many) equivalent points", "why_tests_cant": "Minimality over an infinite lattice.", "anchors": ["elphmod/bravais.py: to_Voronoi, squared_distance"]}
{"id": "C27", "title": "Wigner-Seitz weights add up to one per mesh point", "statement": "In the point lists returned by wigner_2d and wigner, the inverse degeneracies of the points equivalent to any given mesh point add up to one (per pair of basis sites), so the inverse degeneracies add up to the number of mesh points.", "quantifier": "for every mesh size, every cell geometry and basis, every distance tolerance, and every number of processes", "why_tests_cant": "All mesh sizes and geometries.", "anchors": ["elphmod/bravais.py: wigner_2d, wigner"]}
{"id": "C28", "title": "Short-range models reproduce the sampled data on the original mesh", "statement": "The models set up by el.k2r, ph.q2r, elel.q2r (inverse Fourier transform, distribution over Wigner-Seitz points with degeneracy weights) evaluate at every mesh point to exactly the matrix sampled there.", "quantifier": "for every mesh shape, every matrix-valued sample and every set of lattice vectors whose weights add up to one per residue class", "why_tests_cant": "A discrete-Fourier identity for all sizes.", "anchors": ["elphmod/bravais.py: short_range_model", "elphmod/el.py: k2r, Model.H", "elphmod/ph.py: q2r, Model.D", "elphmod/elel.py: q2r"]}
{"id": "C29", "title": "Fourier interpolation is exact at mesh points", "statement": "bravais.Fourier_interpolation(data) evaluated at mesh points returns the data.", "quantifier": "for every mesh size, angle and data", "why_tests_cant": "All mesh sizes.", "anchors": ["elphmod/bravais.py: Fourier_interpolation"]}
{"id": "C30", "title": "Reciprocal vectors are dual; coordinate conversions are inverse", "statement": "bravais.reciprocals returns b_i with a_i . b_j = delta_ij for linearly independent a_i (2D and 3D), cartesian_to_crystal and crystal_to_cartesian are inverse to each other, and volume(a) volume(b) = 1.", "quantifier": "for all linearly independent real vectors", "why_tests_cant": "Identities over the reals.", "anchors": ["elphmod/bravais.py: reciprocals, volume, crystal_to_cartesian, cartesian_to_crystal"]}
{"id": "C31", "title": "Primitive vectors have the requested geometry", "statement": "bravais.primitives(ibrav, ...) returns vectors with the lengths, mutual cosines and cell volume that the Bravais lattice index documents in terms of the lattice constants.", "quantifier": "for all supported ibrav values and all admissible lattice constants", "why_tests_cant": "Real parameters; 18 lattice types.", "anchors": ["elphmod/bravais.py: primitives"]}
{"id": "C32", "title": "Uniform meshes enumerate every point exactly once", "statement": "bravais.mesh(n1, ..., flat=True) and bravais.kpoints list n1*n2*... points, point number (i1*n2+i2)*... having coordinates 2 pi i/n; no point is missing or repeated, and reshaping the flat list gives the mesh.", "quantifier": "for all mesh shapes", "why_tests_cant": "All shapes.", "anchors": ["elphmod/bravais.py: mesh, kpoints"]}
{"id": "C33", "title": "Band ordering returns a permutation at every point", "statement": "dispersion.band_order returns at every k point a permutation of the bands, starts with the identity and follows continuous bands (exactly permuted eigenvectors are tracked).", "quantifier": "for every number of points and bands and arbitrary eigenvectors", "why_tests_cant": "All eigenvector sequences.", "anchors": ["elphmod/dispersion.py: band_order"]}
{"id": "C34", "title": "Triangular-lattice DOS is nonnegative and normalised", "statement": "dos.hexDOS counts every state exactly once: the density is nonnegative, vanishes outside the band, and its integral over energy is one per band.", "quantifier": "for all mesh sizes and all real band energies, including degenerate triangles and every process count", "why_tests_cant": "Real-valued data and an integral.", "anchors": ["elphmod/dos.py: hexDOS"]}
{"id": "C35", "title": "Occupation functions: complement, range and monotonicity", "statement": "Every smearing function tends to one and zero for small and large arguments; all but Marzari-Vanderbilt, which is asymmetric by design, satisfy f(x) + f(-x) = 1; Fermi-Dirac, Gauss and Lorentz satisfy 0 < f < 1 and are strictly decreasing; the overflow guards change values by less than exp(-709) only; Matsubara sums converge to the Fermi function with increasing number of frequencies.", "quantifier": "for all real x", "why_tests_cant": "All reals.", "anchors": ["elphmod/occupations.py: fermi_dirac, gauss, methfessel_paxton, marzari_vanderbilt, heaviside, two_fermi_dirac, double_fermi_dirac, lorentz"]}
{"id": "C36", "title": "delta is minus the derivative of the occupation, delta_prime the derivative of delta", "statement": "For every smearing, f.delta(x) = -f'(x) and f.delta_prime(x) = d/dx f.delta(x).", "quantifier": "for all real x (inside the overflow guards)", "why_tests_cant": "A derivative identity over the reals; finite differences only sample it.", "anchors": ["elphmod/occupations.py: all *_delta, *_delta_prime"]}
{"id": "C37", "title": "Generalised entropy is consistent with the occupation", "statement": "For every smearing with an entropy s: s'(x) = -x f.delta(x) up to the sign convention, so that the grand potential differentiates to the occupation.", "quantifier": "for all real x", "why_tests_cant": "A derivative identity over the reals.", "anchors": ["elphmod/occupations.py: fermi_dirac_entropy, gauss_entropy, marzari_vanderbilt_entropy, methfessel_paxton_1_entropy", "elphmod/diagrams.py: grand_potential"]}
{"id": "C38", "title": "find_Fermi_level terminates and returns a level with the requested electron number", "statement": "Whenever occupations.find_Fermi_level returns a value mu, the electron number at mu differs from n by less than the tolerance; the exact solution is a fixed point of the iteration; for Fermi-Dirac, Gauss and Lorentz smearing and any bands neither empty nor full it returns after finitely many iterations from every starting point; impossible electron numbers are never returned.", "quantifier": "for all band energies, electron numbers, temperatures, smearings, starting values and iteration counts", "why_tests_cant": "Iterative loop over reals of unbounded length.", "anchors": ["elphmod/occupations.py: find_Fermi_level, find_Fermi_level_simple"]}
{"id": "C39", "title": "Smearing names select the documented function", "statement": "occupations.smearing returns the documented function for each of the listed names (case-insensitive) and returns functions unchanged; for any other name it does not silently return None.", "quantifier": "for every string", "why_tests_cant": "All strings.", "anchors": ["elphmod/occupations.py: smearing"]}
{"id": "C40", "title": "Bloch Hamiltonian is 2 pi periodic and Hermitian after symmetrize", "statement": "el.Model.H, ph.Model.D (short range) and elel.Model.W are 2 pi periodic in every component; after symmetrize()/standardize(symmetrize=True) the matrix is Hermitian at every real k.", "quantifier": "for all real k and all lattice-vector lists and data", "why_tests_cant": "All models and all real k points.", "anchors": ["elphmod/el.py: Model.H, Model.standardize, Model.symmetrize", "elphmod/ph.py: Model.D, Model.standardize", "elphmod/elel.py: Model.W, Model.standardize"]}
{"id": "C41", "title": "standardize() preserves the Bloch matrix and yields sorted unique lattice vectors", "statement": "standardize() (eps=0, no symmetrisation) leaves H(k) unchanged at every k; afterwards the lattice vectors are strictly sorted, hence unique, and contain only vectors present before (plus the origin where documented); applying it twice changes nothing more.", "quantifier": "for all lattice-vector lists (with repetitions and cancellations) and data", "why_tests_cant": "All models.", "anchors": ["elphmod/el.py: Model.standardize", "elphmod/ph.py: Model.standardize", "elphmod/elph.py: Model.standardize", "elphmod/elel.py: Model.standardize"]}
{"id": "C42", "title": "Supercell models are the folded unit-cell models", "statement": "For a model with unique lattice vectors, the supercell model's block (i, j) at supercell vector R is the unit-cell block at R.N + cells[j] - cells[i]; hence Bloch sums of the unit cell are Bloch sums of the supercell at the folded wave vector.", "quantifier": "for all models with unique lattice vectors, all nonsingular integer supercells, all real wave vectors", "why_tests_cant": "All models and supercells.", "anchors": ["elphmod/el.py: Model.supercell", "elphmod/ph.py: Model.supercell", "elphmod/elel.py: Model.supercell", "elphmod/elph.py: Model.supercell"]}
{"id": "C43", "title": "unit_cell() undoes supercell()", "statement": "Mapping a model to a supercell and back with unit_cell returns a model with the same Bloch matrices (same nonzero blocks at the same lattice vectors, same primitive vectors for ph).", "quantifier": "for all models with unique lattice vectors and all nonsingular integer supercells, including left-handed ones", "why_tests_cant": "All integer supercells including negative determinants.", "anchors": ["elphmod/el.py: Model.unit_cell", "elphmod/ph.py: Model.unit_cell"]}
{"id": "C44", "title": "Reordering and shifting orbitals or atoms is a unitary change of basis", "statement": "order_orbitals/order_atoms permute rows and columns of the Bloch matrix; shift_orbitals/shift_atoms multiply it by diagonal phases; both can be undone and leave the spectrum unchanged.", "quantifier": "for all models, all permutations, all subsets and all integer shift vectors", "why_tests_cant": "All models and operations.", "anchors": ["elphmod/el.py: Model.order_orbitals, Model.shift_orbitals", "elphmod/ph.py: Model.order_atoms, Model.shift_atoms"]}
{"id": "C45", "title": "Acoustic sum rules hold after correction", "statement": "After ph.Model.asr (asr_simple) the force constants of every atom sum to zero; after zasr the Born charges sum to zero; after elph.Model.asr the coupling summed over lattice vectors and atoms vanishes and zeros remain zeros.", "quantifier": "for all data", "why_tests_cant": "All data.", "anchors": ["elphmod/ph.py: asr, zasr, Model", "elphmod/elph.py: Model.asr"]}
{"id": "C46", "title": "Division by masses is symmetric and invertible", "statement": "divide_by_mass keeps the Hermiticity/symmetry of force constants, and the mass-weighted matrix determines the force constants (the scaling can be undone).", "quantifier": "for all data and all positive masses", "why_tests_cant": "All data.", "anchors": ["elphmod/ph.py: divide_by_mass"]}
{"id": "C47", "title": "Cached coupling always reflects the current model", "statement": "elph.Model.g(q, k) returns the Fourier transform of the current real-space data at (q, k), for any history of calls g, standardize, symmetrize, asr, ... on the same object.", "quantifier": "for every sequence of method calls and arguments", "why_tests_cant": "Cache bugs need particular histories (same q before and after a mutation).", "anchors": ["elphmod/elph.py: Model.g, Model.asr, Model.standardize, q2r"]}
{"id": "C48", "title": "Wannier90 hr.dat files survive a write/read round trip", "statement": "Reading the file written by el.write_hrdat/to_hrdat returns the same lattice vectors and (rounded) matrix elements.", "quantifier": "for every number of orbitals, every list of lattice vectors (any size, any magnitude) and all data", "why_tests_cant": "Fixed-width columns merge only for particular sizes and values.", "anchors": ["elphmod/el.py: read_hrdat, write_hrdat"]}
{"id": "C49", "title": "EPW coupling files survive a write/read round trip", "statement": "Reading the .epmatwp/.wigner files written by elph.Model.to_epmatwp into a model with the same el and ph returns the same lattice vectors and coupling.", "quantifier": "for all models, with and without mass division", "why_tests_cant": "All sizes and data; index-order errors are hidden for symmetric data.", "anchors": ["elphmod/elph.py: Model.to_epmatwp, Model.__init__", "elphmod/bravais.py: read_wigner_file"]}
{"id": "C50", "title": "Generic array files can be read back", "statement": "elph.read_data returns the array written by elph.write_data.", "quantifier": "for all real or complex arrays of any shape", "why_tests_cant": "All shapes.", "anchors": ["elphmod/elph.py: read_data, write_data"]}
{"id": "C51", "title": "Susceptibility is even, periodic and refers to the shifted mesh", "statement": "diagrams.susceptibility(e)(q1, q2) at mesh points equals the documented Brillouin-zone sum with indices taken modulo the mesh, is invariant under q -> -q and q -> q + G, and is never positive for decreasing occupations.", "quantifier": "for every mesh size, all real energies, all integer q", "why_tests_cant": "All meshes and energies.", "anchors": ["elphmod/diagrams.py: susceptibility"]}
{"id": "C52", "title": "Static phonon self-energy is Hermitian and never hardens phonons", "statement": "The matrix returned by diagrams.phonon_self_energy for real static arguments is Hermitian in the displacement indices, negative semidefinite for decreasing occupations, and independent of the process count.", "quantifier": "for all couplings, energies, mesh sizes, q points", "why_tests_cant": "All data.", "anchors": ["elphmod/diagrams.py: phonon_self_energy"]}
{"id": "C53", "title": "Triangle diagram uses the symmetric second divided difference", "statement": "The occupation factor in diagrams.triangle is the second divided difference of f over the three energies: symmetric under all permutations, and the formulas for coinciding energies are the limits of the generic formula.", "quantifier": "for all real energies, every coincidence pattern, every differentiable occupation function", "why_tests_cant": "Real analysis statement over all coincidence patterns.", "anchors": ["elphmod/diagrams.py: triangle"]}
{"id": "C54", "title": "Orbital-basis renormalisation works for full four-index interactions", "statement": "diagrams.renormalize_coupling_orbital returns (terminates without error) for both the density-density and the full four-index Coulomb interaction.", "quantifier": "for all inputs with consistent shapes", "why_tests_cant": "Termination for every array rank.", "anchors": ["elphmod/diagrams.py: renormalize_coupling_orbital"]}
{"id": "C55", "title": "Unscreening is consistent: Hessian and forces vanish/reproduce at the reference", "statement": "For an md.Driver with unscreen=True, the Hessian at zero displacement equals the input force constants at every q and the forces at zero displacement vanish.", "quantifier": "for all models", "why_tests_cant": "All models.", "anchors": ["elphmod/md.py: Driver.__init__, Driver.hessian, Driver.jacobian"]}
{"id": "C56", "title": "Center-of-mass removal", "statement": "md.Driver.center_mass makes the displacements sum to zero in every direction, changes nothing the second time and does not change relative displacements.", "quantifier": "for all displacements and numbers of atoms >= 1", "why_tests_cant": "All displacements.", "anchors": ["elphmod/md.py: Driver.center_mass"]}
{"id": "C57", "title": "Image grids contain all images in order", "statement": "plot.arrange terminates and arranges all images, in order and without gaps, in a complete rows x columns grid.", "quantifier": "for every number of images >= 1 and every requested number of columns >= 1 or the default", "why_tests_cant": "All counts.", "anchors": ["elphmod/plot.py: arrange"]}
{"id": "C58", "title": "Built-in models are physical", "statement": "The chain, graphene and TaS2 models have Hermitian, 2 pi periodic Hamiltonians and dynamical matrices, dynamical matrices obeying the acoustic sum rule, and couplings with g(q, k) = g(-q, k+q)^dagger and vanishing acoustic coupling where documented. Rigid rotations of graphene do not cost any energy.", "quantifier": "for all real q, k and all parameter values", "why_tests_cant": "All real wave vectors.", "anchors": ["elphmod/models/chain.py", "elphmod/models/graphene.py", "elphmod/models/tas2.py"]}
{"id": "C59", "title": "Band-Coulomb index table holds every mesh index", "statement": "elel.orbital2band refers to the intended k points for all mesh sizes (its table of mesh indices represents every index exactly).", "quantifier": "for every mesh size", "why_tests_cant": "Fails only beyond a size that tests do not reach.", "anchors": ["elphmod/elel.py: orbital2band"]}
{"id": "C60", "title": "Phonon polarisation components are complete", "statement": "ph.polarization returns longitudinal, transverse and out-of-plane weights that are nonnegative and add up to the squared norm of the eigenvector.", "quantifier": "for all q points and eigenvectors", "why_tests_cant": "All real inputs.", "anchors": ["elphmod/ph.py: polarization"]}
{"id": "C61", "title": "Sampled coupling is complete on return with shared memory", "statement": "When elph.sample(..., shared_memory=True) returns on a process, the array it returns contains the coupling for all q points.", "quantifier": "for every number of processes on the node, every number of q points and every schedule", "why_tests_cant": "A data race; it shows only for unlucky schedules.", "anchors": ["elphmod/elph.py: sample", "elphmod/MPI.py: matrix, shared_array"]}
{"id": "C62", "title": "Resized integer arrays contain the interpolated values", "statement": "bravais.resize(data, shape) of an array of integers contains the interpolated values at the new mesh points.", "quantifier": "for every integer array and every new shape", "why_tests_cant": "All arrays; the loss is silent.", "anchors": ["elphmod/bravais.py: resize"]}
{"id": "C63", "title": "complete_k() recovers symmetric data from the irreducible wedge", "statement": "If the data given for the irreducible q points and all k points belong to a function that does not change when q and k are transformed with the same lattice symmetry, bravais.complete_k returns this function on the full q and k meshes and leaves no element unset.", "quantifier": "for all mesh sizes nq, nk and all such functions", "why_tests_cant": "All mesh sizes (also nq and nk that are no multiples of each other) and all functions.", "anchors": ["elphmod/bravais.py: complete_k, symmetries, irreducibles"]}
{"id": "C64", "title": "Shifted Voronoi cells", "statement": "bravais.to_Voronoi with a shift (dk1, dk2) returns exactly the equivalent points nearest to the shifted centre.", "quantifier": "for every nk >= 1, all integers k1, k2, all three angles, all real shifts", "why_tests_cant": "Minimality over an infinite lattice, real shifts.", "anchors": ["elphmod/bravais.py: to_Voronoi"]}
{"id": "C65", "title": "Wigner-Seitz lattice vectors are distinct, shortest and correctly counted", "statement": "bravais.wigner lists no lattice vector twice; for a pair of sites it lists exactly those of the searched equivalent lattice vectors for which the bond is shortest within the tolerance, and the degeneracy is their number.", "quantifier": "for every mesh, geometry, basis, positive tolerance, search range and number of processes", "why_tests_cant": "All geometries and process counts.", "anchors": ["elphmod/bravais.py: wigner"]}
{"id": "C66", "title": "Calculating lattice vectors does not change the input", "statement": "Calling bravais.primitives repeatedly with the same arguments returns the same lattice vectors.", "quantifier": "for every Bravais lattice and all lattice parameters, units and calls", "why_tests_cant": "All parameter combinations; a mutated argument shows only in the next call.", "anchors": ["elphmod/bravais.py: primitives"]}
{"id": "C67", "title": "Mapping of dispersions is one-to-one", "statement": "dispersion.map_dispersions assigns every band of the first set to a different band of the second; if the second set consists of the states of the first in another order and with other phases, it returns this order.", "quantifier": "for every number of bands, all eigenvectors, every order of iteration of Python sets", "why_tests_cant": "All eigenvectors and permutations; the order of sets is unspecified.", "anchors": ["elphmod/dispersion.py: map_dispersions"]}
{"id": "C68", "title": "Unfolding weights are normalized", "statement": "The weights returned by dispersion.unfolding_weights lie between zero and one and sum to the number of bands of the unit cell at every k point; a supercell Bloch state has weight one at its own k point and zero at the other k points that fold onto it.", "quantifier": "for all supercells, positions, k points and orthonormal eigenvectors", "why_tests_cant": "A Parseval identity for all unitary matrices.", "anchors": ["elphmod/dispersion.py: unfolding_weights"]}
{"id": "C69", "title": "Double-delta integrals find every isoline crossing once", "statement": "dos.double_delta reports for every triangle of the mesh exactly the point where the linear interpolations of both functions have the requested value, with the interpolated function over the Jacobian as weight; the sum of the weights does not depend on the number of processes or on the choice of the origin of the periodic mesh.", "quantifier": "for all meshes, all functions, all values and process counts", "why_tests_cant": "Solvability of linear systems for all data; boundary cases need exact coincidences.", "anchors": ["elphmod/dos.py: double_delta", "elphmod/misc.py: group"]}
{"id": "C70", "title": "Eliashberg spectral function integrates to the mean coupling", "statement": "dos.hexa2F is nonnegative for nonnegative couplings, is the density of states times the coupling for constant couplings, and integrates to the arithmetic mean of the couplings.", "quantifier": "for all meshes, energies, couplings, windows and process counts", "why_tests_cant": "An integral identity for all data.", "anchors": ["elphmod/dos.py: hexa2F"]}
{"id": "C72", "title": "Velocity operator is the k derivative of the Hamiltonian", "statement": "el.Model.v(k)[x] is the partial derivative of el.Model.H(k) with respect to component x of the wave vector in crystal coordinates.", "quantifier": "for all models, all real k, all three components", "why_tests_cant": "A finite-difference test checks single points with limited accuracy.", "anchors": ["elphmod/el.py: Model.v, Model.H"]}
{"id": "C74", "title": "Sum-rule correction is the smallest symmetric one", "statement": "After ph.sum_rule_correction with thresholds eps >= 0, each acoustic sum and each rotation sum of the force constants is bounded by sqrt(eps)/2 times their original norm (zero for eps = 0), force constants remain symmetric under exchange of the two atoms, no symmetric force constants satisfying the requested sum rules are closer to the original ones, and force constants which satisfy the sum rules are not changed.", "quantifier": "for all numbers of atoms and lattice vectors (distinct, closed under inversion), positions, positive masses, real symmetric force constants, eps >= 0, with and without division by masses", "why_tests_cant": "Tests look at the residual for one crystal; minimality is a statement about all competitors, and skipping nearly dependent constraints is data dependent.", "anchors": ["elphmod/ph.py: sum_rule_correction"]}
{"id": "C75", "title": "Signed square root of squared frequencies", "statement": "ph.sgnsqrt is odd, strictly increasing, and w2 = sgnsqrt(w2) |sgnsqrt(w2)|, so that no information on instabilities is lost.", "quantifier": "for all real arguments", "why_tests_cant": "Tests sample a few values; monotonicity is global.", "anchors": ["elphmod/ph.py: sgnsqrt"]}
{"id": "C76", "title": "Symmetries of long-range part of dynamical matrix", "statement": "D_lr(-q) is the complex conjugate of D_lr(q), the q-dependent part is Hermitian (and positive semidefinite in 3D), the mass-weighted sum over displacements of all atoms vanishes at q = 0, and quadrupole terms agree with displaced dipoles to first order.", "quantifier": "for all crystals, charges, quadrupoles, dielectric tensors, 2D and 3D variants, q points and cutoffs", "why_tests_cant": "Symmetries hold only if the set of reciprocal lattice vectors is closed under inversion for all cutoffs, which single examples do not show.", "anchors": ["elphmod/ph.py: Model.prepare_long_range, Model.generate_long_range, Model.D_lr"]}
{"id": "C77", "title": "Range separation does not change the dynamical matrix on the original mesh", "statement": "After Model.sample_orig and Model.update_short_range with unchanged parameters, D(q) at all points of the original mesh is what it was. With changed parameters, the deviation is the part of the new short-range matrices that is odd under time reversal, which vanishes at q = 0.", "quantifier": "for all meshes, crystals, real force constants, charges etc., all mesh points", "why_tests_cant": "Depends on the interplay of cutoff, Fourier transform and Wigner-Seitz construction for all meshes.", "anchors": ["elphmod/ph.py: Model.sample_orig, Model.update_short_range, q2r"]}
{"id": "C73", "title": "Standardization does not change the coupling", "statement": "elph.Model.standardize leaves g(q, k) unchanged for all wave vectors, lattice vectors become sorted and distinct, and symmetrize replaces g by the mean of g and its adjoint, g(q, k)[x, a, b] = conj(g(-q, k + q)[x, b, a]).", "quantifier": "for all real-space couplings, lattice vectors and wave vectors", "why_tests_cant": "The number of lattice vectors may grow or shrink, which tests with one data set do not exercise.", "anchors": ["elphmod/elph.py: Model.standardize, Model.symmetrize"]}
{"id": "C78", "title": "Coupling of supercell is folded coupling of unit cell", "statement": "For the coupling returned by elph.Model.supercell, Bloch sums over the cells of displacement and second orbital of g at the folded wave vectors equal a phase times g(q, k) of the unit cell; matrix elements are those of the original lattice vectors; the sparse matrices are the real part of the dense result at q = k = 0.", "quantifier": "for all couplings with distinct lattice vectors, all invertible (also non-diagonal) supercells, all wave vectors, cells, displacements and orbitals", "why_tests_cant": "Tests use one supercell; the property is about all integer matrices and wave vectors.", "anchors": ["elphmod/elph.py: Model.supercell", "elphmod/bravais.py: supercell, to_supercell"]}
{"id": "C79", "title": "Fixed-density electronic force constants at the zone center", "statement": "The sum of diagrams.phonon_self_energy at q = 0 and diagrams.phonon_self_energy_fermi_shift is negative semidefinite for Hermitian couplings, and vanishes for displacements that shift all electron energies by the same amount.", "quantifier": "for all meshes, energies, decreasing occupation functions, temperatures > 0, eps >= 0, couplings with real diagonal", "why_tests_cant": "An inequality (Cauchy-Schwarz) for all energies and couplings, not one data set.", "anchors": ["elphmod/diagrams.py: phonon_self_energy, phonon_self_energy_fermi_shift"]}
{"id": "C80", "title": "Ewald sum contains all reciprocal lattice vectors below the cutoff", "statement": "After ph.Model.prepare_long_range, Model.G contains exactly the reciprocal lattice vectors G (in-plane ones in 2D) with G eps G < scale * G_max, independently of the choice of primitive vectors.", "quantifier": "for all primitive vectors, dielectric tensors with eigenvalues >= 1, cutoffs", "why_tests_cant": "Only visible for strongly skewed cells.", "anchors": ["elphmod/ph.py: Model.prepare_long_range"]}
{"id": "C81", "title": "Grand potential and its first derivative", "statement": "diagrams.grand_potential returns the grand potential of independent electrons (general and Fermi-Dirac branch agree), diagrams.first_order is its derivative, the same in band and orbital basis, and an upper bound for the change upon any finite Hermitian perturbation (Gibbs-Bogoliubov).", "quantifier": "for all meshes, energies, temperatures > 0, perturbations, smooth decreasing occupation functions", "why_tests_cant": "An inequality over all Hermitian matrices and an identity of two code branches.", "anchors": ["elphmod/diagrams.py: grand_potential, first_order"]}
{"id": "C82", "title": "Renormalized coupling does not depend on the basis", "statement": "Transforming the result of diagrams.renormalize_coupling_orbital to the band basis gives the result of diagrams.renormalize_coupling_band for the transformed coupling; the correction is linear in the interaction.", "quantifier": "for all couplings, density-density interactions, eigenvectors, weights, q points", "why_tests_cant": "Both functions are tested for single models at best; the identity is for all inputs.", "anchors": ["elphmod/diagrams.py: renormalize_coupling_orbital, renormalize_coupling_band, Pi_g"]}
{"id": "C83", "title": "Static polarization is Hermitian, negative, and screened less in cRPA", "statement": "diagrams.polarization returns Hermitian, negative semidefinite matrices; excluding transitions within a subspace never makes the polarization more negative; the sum of all elements at q = 0 is minus the density of states.", "quantifier": "for all meshes, energies, eigenvectors, subspaces, q points, decreasing occupations", "why_tests_cant": "Definiteness and ordering for all inputs.", "anchors": ["elphmod/diagrams.py: polarization"]}
{"id": "C84", "title": "Double Fermi-surface averages", "statement": "diagrams.double_fermi_surface_average refers to the shifted mesh, its ratio lies between the extreme values of g2, it is the same for q and -q, and the denominators of all q points sum to the square of the density of states.", "quantifier": "for all meshes, energies, broadenings, couplings, q points", "why_tests_cant": "Index arithmetic and sum rule for all meshes.", "anchors": ["elphmod/diagrams.py: double_fermi_surface_average"]}
{"id": "C85", "title": "Electron self-energy is causal", "statement": "diagrams.fan_migdal_self_energy has no positive imaginary part for frequencies above the real axis, is conjugated by conjugation of the frequency, and equals the documented sum at mesh points.", "quantifier": "for all meshes, energies, positive phonon frequencies, couplings >= 0, complex frequencies", "why_tests_cant": "Statement about all complex frequencies.", "anchors": ["elphmod/diagrams.py: fan_migdal_self_energy", "elphmod/occupations.py: bose_einstein"]}
{"id": "C86", "title": "Optical conductivity is symmetric, even and positive", "statement": "diagrams.green_kubo_conductivity returns symmetric positive semidefinite tensors, the same for positive and negative frequency.", "quantifier": "for all velocities, nonnegative spectral functions, equidistant frequency meshes, decreasing occupations", "why_tests_cant": "Slices of arrays depend on the sign of the frequency; positivity is for all inputs.", "anchors": ["elphmod/diagrams.py: green_kubo_conductivity"]}
{"id": "C87", "title": "Dynamic phonon self-energy and window derivative", "statement": "In the dynamic case, diagrams.phonon_self_energy at the complex conjugate frequency is the Hermitian conjugate, at -q and -omega the transposed of that at q and omega, and it converges to the static result for omega -> 0 if no coupled energies are equal; with Delta_diff the derivative with respect to the half-width Delta of the excluded window is returned.", "quantifier": "for all meshes, energies, couplings, complex frequencies, smooth windows", "why_tests_cant": "Symmetries, limits and derivatives for all inputs.", "anchors": ["elphmod/diagrams.py: phonon_self_energy"]}
{"id": "C88", "title": "Long-range electron-phonon coupling is that of a real potential", "statement": "The long-range coupling elph.Model.g_lr for -q is the complex conjugate of that for q; in two dimensions, out-of-plane displacements that do not induce in-plane dipoles do not couple at long range, even if out-of-plane dipoles are considered for the phonons (perp).", "quantifier": "for all crystal structures, Born charges, quadrupoles, cutoffs, wave vectors", "why_tests_cant": "Symmetries for all wave vectors and material parameters.", "anchors": ["elphmod/elph.py: Model.g_lr", "elphmod/ph.py: Model.generate_long_range"]}
{"id": "C89", "title": "Forces and force constants are derivatives of the free energy", "statement": "md.Driver.jacobian is the gradient of md.Driver.free_energy, and md.Driver.hessian its second derivative at q = 0, including the shift of the chemical potential with fixed number of electrons; a collective displacement does not change the free energy.", "quantifier": "for all models, smearings, structures, differentiable paths of displacements", "why_tests_cant": "The identity must hold for all structures, couplings, and smearings, including degenerate bands; finite differences only test samples to limited accuracy.", "anchors": ["elphmod/md.py: Driver.free_energy, Driver.jacobian, Driver.hessian, Driver.center_mass", "elphmod/diagrams.py: first_order, phonon_self_energy, phonon_self_energy_fermi_shift"]}
{"id": "C90", "title": "Dispersion on the full mesh from the irreducible wedge", "statement": "dispersion_full(matrix, size, rotsym=True) returns, at every point of the size x size mesh, the eigenvalues at a symmetry-equivalent irreducible point, so that for a symmetric matrix function the result equals direct diagonalization everywhere (dispersion_full_nosym). With order=True the result at each point is a permutation of the eigenvalues, the same permutation is applied to eigenvectors and stored in the order array, and bands that can be followed via dominant overlaps along main and side paths carry the same index.", "quantifier": "for all mesh sizes, both lattice angles, all matrix functions with the point-group symmetry, all eigenvalue arrays and overlaps", "why_tests_cant": "a test can only try a few mesh sizes and one Hamiltonian; degenerate or small meshes (size 1, 2, odd) and arbitrary band crossings are not covered", "anchors": ["elphmod/dispersion.py:218-359", "elphmod/dispersion.py:361-409"]}
{"id": "C91", "title": "Results of dispersion are visible on all processes", "statement": "When dispersion(..., broadcast=True) returns, eigenvalues, eigenvectors and band order are the same on all MPI processes, with and without shared memory.", "quantifier": "for all numbers of processes, distributions over nodes and interleavings of the processes", "why_tests_cant": "depends on the distribution over nodes and on the schedule; the test suite runs on few processes of one node and rebinding of a name is invisible on rank 0", "anchors": ["elphmod/dispersion.py:148-192"]}
{"id": "C92", "title": "Eigenvalues and eigenvectors at each k point", "statement": "For each k point, dispersion returns eigenpairs of matrix(k) in ascending order, orthonormal for Hermitian matrices; the options vectors, gauge and the special treatment of one band do not change the eigenvalues; with gauge=True the eigenvectors do not depend on the phases chosen by the diagonalization routine and the largest component is real and not negative; with rotate=True the in-plane displacements of all atoms are expressed with respect to the wave vector.", "quantifier": "for all matrices of any size, all phases of eigenvectors, all wave vectors and numbers of atoms", "why_tests_cant": "phases of eigenvectors depend on the LAPACK version; a test with one matrix cannot settle invariance for all phases or all numbers of atoms", "anchors": ["elphmod/dispersion.py:97-147"]}
{"id": "C93", "title": "Lindhard bubble from Matsubara Green's functions", "statement": "diagrams.susceptibility2 and diagrams.phonon_self_energy2 without hybridization converge, with increasing number of Matsubara frequencies, to the static Lindhard bubble and phonon self-energy given by difference quotients of the Fermi function, at all q points of the mesh, including q = 0 and degenerate energies; the susceptibility is real.", "quantifier": "for all meshes, dispersions, temperatures, q points of the mesh; limit of infinitely many frequencies", "why_tests_cant": "a test can only compare finite sums for a few dispersions within a tolerance; the tail correction is exact only in the limit", "anchors": ["elphmod/diagrams.py:73-145", "elphmod/diagrams.py:534-611"]}
{"id": "C94", "title": "Parameters of McMillan's formula are averages over the full Brillouin zone", "statement": "eliashberg.McMillan, which only takes irreducible q points, returns the coupling strength and average phonon energies of the full mesh for inputs with the symmetry of the lattice; the coupling strength is not negative and proportional to the squared coupling; the logarithmic average is between the lowest and highest contributing phonon energy and does not exceed the second-moment average; modes below eps do not contribute.", "quantifier": "for all mesh sizes, numbers of modes, frequencies and couplings", "why_tests_cant": "weights of q points depend on the mesh size; inequalities between averages hold for all distributions of frequencies, tests sample a few", "anchors": ["elphmod/eliashberg.py:53-158"]}
{"id": "C95", "title": "Critical temperature behaves as McMillan's and Allen and Dynes' formulas demand", "statement": "eliashberg.Tc increases with the coupling strength wherever the denominator exceeds the cutoff (below it is negligible), does not increase with the Coulomb pseudopotential, is proportional to the phonon energies, and is enhanced by the strong-coupling and shape corrections.", "quantifier": "for all positive couplings, phonon energies and pseudopotentials", "why_tests_cant": "monotonicity and scaling concern all pairs of real inputs", "anchors": ["elphmod/eliashberg.py:14-51"]}
{"id": "C96", "title": "Sum of force constants counts interactions between different atoms only", "statement": "Model.sum_force_constants() returns the sum of the absolute values of all force constants between different atoms (periodic images of an atom count as different atoms, the action of an atom on itself does not count), divided by twice the number of q points. The value is not negative, zero only without interatomic force constants, and the same whether or not the model stores mass-normalized force constants.", "quantifier": "all numbers of atoms and lattice vectors, all real force constants, all positive masses, lattice vectors listed once", "why_tests_cant": "a test covers some materials only; the cancellation of masses and the exclusion of exactly the self terms concern all of them", "anchors": ["elphmod/ph.py:182-200", "elphmod/ph.py:538-556"]}
{"id": "C97", "title": "Phonon spectral function is normalized to the number of modes", "statement": "For Hermitian dynamical matrices, spectral_function(D, omega, eta) is a sum of one peak per mode, not negative, independent of the number of processes, and its integral over all positive frequencies equals the number of modes if all squared frequencies are at least -eta^2. For more unstable modes, the integral is smaller: such a mode contributes eta divided by the modulus of its imaginary frequency.", "quantifier": "all matrix sizes, all Hermitian matrices, all positive frequencies and broadenings, all numbers of processes", "why_tests_cant": "an improper integral cannot be evaluated by a test, only approximated for single matrices", "anchors": ["elphmod/ph.py:2098-2140"]}
{"id": "C98", "title": "toBZ shows exactly the first Brillouin zone, each point once", "statement": "toBZ maps data from a periodic mesh to pixels. A pixel is filled exactly if it is at least as close to the origin as to any other reciprocal lattice point; every wave vector has an equivalent one inside, and only one if it is not on the boundary. Pixels are centred in the frame; each one has the linear interpolation of the data of its wedge, the wedges being equal sectors counted from the first lattice vector; equivalent wave vectors have equal data. The frame contains the whole zone.", "quantifier": "all three lattice angles, all orientations, all wave vectors, all resolutions, all data, all numbers of processes", "why_tests_cant": "a picture is usually inspected by eye for one lattice and orientation; the statement holds for a continuum of orientations and points", "anchors": ["elphmod/plot.py:222-327"]}
{"id": "C99", "title": "Composite lines have the width of the weights", "statement": "compline(x, y, composition) returns closed polygons. The area of each polygon equals the integral (trapezoidal rule) of its weight; neighbouring polygons share their common border; with center=True the line y is the middle of the whole composition.", "quantifier": "all numbers of points and components, all real coordinates and weights", "why_tests_cant": "the area of polygons with many vertices as identity in all weights", "anchors": ["elphmod/plot.py:474-512"]}
{"id": "C100", "title": "rectify with a rectangle of pixels crops the image", "statement": "rectify with the four corners of a rectangle along pixel borders returns exactly the pixels inside; with the corners of the image, it returns the image itself. For arbitrary corners, all values stay between the smallest and the largest one of the original image.", "quantifier": "all images, all pixel rectangles (also reaching over the border, then the image is repeated), all interpolation angles", "why_tests_cant": "tests cover single images and rectangles", "anchors": ["elphmod/plot.py:329-376"]}
{"id": "C101", "title": "color maps data linearly and can be used repeatedly", "statement": "color(data, cmap, minimum, maximum) applies the color map to (data - minimum) / (maximum - minimum), clipped to the interval from 0 to 1 where needed; positions given as strings are data values. The smallest and largest data are the defaults. The result is monotonic and independent of the number of processes; the same color map may be used for several data sets.", "quantifier": "all data, limits, positions of the color map, numbers of processes", "why_tests_cant": "the state of the color map after a call matters only for later calls with other data, which tests rarely combine", "anchors": ["elphmod/plot.py:378-428"]}
{"id": "C102", "title": "adjust_pixels moves given columns to given distances", "statement": "adjust_pixels(image, points, distances, width, height) returns an image of the given size in which each of the given columns is found at the column that corresponds to its distance (up to rounding), the first one at the left and the last one at the right border; in between, the image is stretched evenly, and no pixel is left empty.", "quantifier": "all images, all nondecreasing lists of columns, all distances, widths and heights, all numbers of processes", "why_tests_cant": "rounding of positions and overlap of the stretched pieces depend on the combination of all arguments", "anchors": ["elphmod/plot.py:430-472"]}
{"id": "C103", "title": "Paths through the Brillouin zone connect the given points", "statement": "path(points, N, ...) returns points on straight lines between the given special points; each special point is found at its corner index, neighbouring special points are connected by equidistant points, and differences of the returned path coordinate are the Euclidean distances between neighbouring points. The list of corners with numbers of intervals (input for Quantum ESPRESSO) generates the same points. With moveG, only Gamma points are moved, towards their neighbours.", "quantifier": "all lists of special points, all densities, all bases of two or three vectors", "why_tests_cant": "the numbers of points per segment come from rounding lengths; off-by-one errors at corners depend on the combination of points", "anchors": ["elphmod/bravais.py:1491-1683"]}
{"id": "C104", "title": "Special points lie on the boundary of the Brillouin zone", "statement": "All labels known to path for the cubic, hexagonal, simple tetragonal and simple orthorhombic lattices stand for points on the boundary of the Brillouin zone (except for G), for all lattice constants. Alternative axes of the same lattice have the same Cartesian special points.", "quantifier": "all lattice constants, all labels, all reciprocal lattice vectors", "why_tests_cant": "for each point, the comparison involves infinitely many reciprocal lattice vectors and a continuum of lattice constants", "anchors": ["elphmod/bravais.py:1529-1632"]}
{"id": "C105", "title": "GMKG returns the path Gamma-M-K-Gamma of the triangular lattice", "statement": "GMKG(N) leads from Gamma to M, K (or an equivalent point) and back to Gamma, with right corner indices; the path coordinate measures the distance of neighbouring points up to a reciprocal lattice vector. With mesh=True and N a multiple of six, all points belong to the uniform N x N mesh; with straight=True, the direction does not change at K. lift_degen changes each wave vector by at most 1e-9 and nothing else.", "quantifier": "all N >= 2, all combinations of options, all points of the path", "why_tests_cant": "the rounding of the numbers of points depends on N; the statement is about all N and all indices", "anchors": ["elphmod/bravais.py:1685-1774"]}
{"id": "C106", "title": "BZ returns the outline of the Brillouin zone", "statement": "BZ(angle) returns a closed polygon; a point belongs to one of its edges if and only if it is on the boundary of the Brillouin zone, i.e., has the origin and some other reciprocal lattice point as closest reciprocal lattice points.", "quantifier": "all points of the plane, all three lattice angles", "why_tests_cant": "both sides are sets of infinitely many points", "anchors": ["elphmod/bravais.py:1776-1794"]}
{"id": "C107", "title": "point_on_path accepts the points between two points", "statement": "point_on_path(test, A, B) is true if test is on the straight line between A and B, and if it is true, test is within the tolerance from this line.", "quantifier": "all points A, B, test in three dimensions, all tolerances", "why_tests_cant": "a statement about a continuum of points; tests that use points in one plane do not notice the missing component", "anchors": ["elphmod/bravais.py:2564-2587"]}
{"id": "C108", "title": "Lists of wave vectors are read as they were written", "statement": "read_q applied to the output of write_q gives the same wave vectors in the same order (up to 15 decimals) and the same mesh.", "quantifier": "all lists of wave vectors, all mesh sizes", "why_tests_cant": "whether columns touch depends on the values", "anchors": ["elphmod/ph.py:1015-1052"]}
{"id": "C109", "title": "Quadrupole tensors are read as they were written", "statement": "read_quadrupole applied to the output of write_quadrupole gives the same tensors for all atoms, up to ten decimals, if they are symmetric in the last two indices; the result is always symmetric in these indices.", "quantifier": "all numbers of atoms, all tensors", "why_tests_cant": "a statement about all values and numbers of atoms; an exchange of two mixed components is invisible for cubic test data", "anchors": ["elphmod/ph.py:1561-1627"]}
{"id": "C110", "title": "Coulomb interaction in band basis is read as it was written", "statement": "read_band_Coulomb_interaction applied to the output of write_band_Coulomb_interaction gives the same array, element by element, up to nine decimals.", "quantifier": "all numbers of wave vectors and all values", "why_tests_cant": "the order of five nested indices matters for arrays without symmetry only", "anchors": ["elphmod/elel.py:380-433"]}
{"id": "C111", "title": "Band-structure files are read as they were written", "statement": "read_bands applied to the output of write_bands (for any field width, number of decimals and number of columns) or to the file with phonon frequencies returns the same number of bands, wave vectors and energies, for any numbers of bands and wave vectors. The path coordinate never decreases and differences are at least the distances of the points.", "quantifier": "all numbers of bands, wave vectors, columns; all formats; all values", "why_tests_cant": "lines are wrapped depending on the number of columns and bands; fields may touch for large values", "anchors": ["elphmod/el.py:817-906", "elphmod/ph.py:1054-1086"]}
{"id": "C112", "title": "Trajectory files restore the displacements", "statement": "A driver that reads the .xyz file it has written has the same displacements, up to nine decimals. Reading a file with several steps leaves the last one; atoms whose label disagrees keep their position; a file for another number of atoms changes nothing.", "quantifier": "all numbers of atoms, labels, positions, numbers of steps, and initial displacements", "why_tests_cant": "a statement about a sequence of file operations of any length", "anchors": ["elphmod/md.py:738-797"]}
{"id": "C113", "title": "Force-constant files are read as they were written", "statement": "read_flfrc applied to the output of write_flfrc returns the same force constants (or wave vectors and dynamical matrices), atomic masses, lattice vectors, atomic positions, labels, Ewald parameter, dielectric tensor and effective charges, up to rounding, with every element at its place.", "quantifier": "all numbers of atoms and species, all meshes, all numbers of wave vectors, all values", "why_tests_cant": "seven nested indices are written and read in the same order only by convention; columns may touch for large values; species are sorted via a set", "anchors": ["elphmod/ph.py:1088-1431"]}
{"id": "C114", "title": "Electron density sums to the number of electrons", "statement": "density returns the number of electrons per orbital: the sum over all orbitals is the sum of all occupations, no orbital holds less than none or (without spin) more than two electrons, the result does not depend on phases of eigenvectors or the basis of degenerate states, and density_per_atom assigns each orbital to exactly one atom, so that the sum over all atoms is the same.", "quantifier": "all bands, eigenvectors, meshes, occupation functions, numbers of orbitals per atom, supercells", "why_tests_cant": "a statement about all unitary eigenvector matrices and all ways of distributing orbitals over atoms", "anchors": ["elphmod/md.py:597-629"]}
{"id": "C115", "title": "Two chemical potentials conserve the number of electrons", "statement": "With two_fermi_dirac, find_Fermi_level sets the chemical potentials of electrons and holes such that the total number of electrons is n and n_excited of them occupy the states above.", "quantifier": "all bands, temperatures, meshes, numbers of electrons and excited electrons", "why_tests_cant": "depends on the order of nested searches for arbitrary bands", "anchors": ["elphmod/md.py:194-221"]}
{"id": "C116", "title": "Coupling strength and average phonon energies are sensible", "statement": "superconductivity returns a nonnegative coupling strength and average phonon energies with logarithmic average at most second-moment average, both between the smallest and largest energy of the coupling stable modes. Unstable modes do not contribute. The result does not depend on phases of polarization vectors or the basis of degenerate modes.", "quantifier": "all electronic structures, couplings, dynamical matrices, broadening functions, meshes", "why_tests_cant": "an inequality (Jensen) for all spectra and a symmetry under all choices of eigenvectors", "anchors": ["elphmod/md.py:513-595"]}
{"id": "C117", "title": "Coupling in band basis keeps its strength and momentum", "statement": "transform (and sample with U and u) returns the coupling in the basis of electronic and phononic eigenvectors. For complete orthonormal eigenvectors, the sum of squares over bands and modes is unchanged. With squared, the result is the squared modulus, which does not depend on phases of eigenvectors. The two electronic states differ by the wave vector q. Transforming a sampled coupling is the same as sampling in the other basis, the result does not depend on the number of processes, and the input is not changed.", "quantifier": "all couplings, eigenvectors, meshes, wave vectors, numbers of processes", "why_tests_cant": "a statement about all unitary matrices and meshes", "anchors": ["elphmod/elph.py:805-946", "elphmod/elph.py:948-1007"]}
{"id": "C118", "title": "Hartree energy is the electrostatic energy of the density", "statement": "hartree_energy, applied to what read_rhoG_density derives from the cell, returns the electrostatic energy in Rydberg. It is nonnegative, zero for uniform densities only, quadratic in the density, and invariant under translations, rotations and changes of the average density.", "quantifier": "all densities, cells, lattice constants, sets of reciprocal vectors", "why_tests_cant": "a statement about all cells; prefactors cancel only in combination", "anchors": ["elphmod/elel.py:558-601", "elphmod/el.py:1895-1910"]}
{"id": "C119", "title": "Binary files with densities and wave functions are read as they were written", "statement": "read_rhoG_density and read_wfc return the numbers, Miller indices and coefficients stored in an unformatted file, for all sizes; files that end too early are not accepted.", "quantifier": "all numbers of vectors, bands, spinor components; all values; all representations of floating-point numbers", "why_tests_cant": "record markers shift all following data if a single size is wrong", "anchors": ["elphmod/el.py:1840-1912", "elphmod/el.py:1914-2010"]}
{"id": "C71", "title": "Isolines consist of exactly the points at the energy", "statement": "The function returned by isoline draws, in each triangle of the mesh, exactly the points at which the linearly interpolated energy has the given value. The triangles are part of the Brillouin zone and cover it, so that the isoline consists of exactly those points of the zone at which the linear interpolation of the data has the given value. However Python orders the set of segments, the contours contain each segment exactly as often as it has been found and nothing else, they are as long as possible, and they are closed if an even number of segments meets at each point. The segments do not depend on the number of processes.", "quantifier": "all meshes, data, triangles, energies, sets of segments, orders of sets, numbers of processes", "why_tests_cant": "the order of the set is not determined, and the set of possible triangles and energies is infinite", "anchors": ["elphmod/dos.py:287-388"]}
{"id": "C120", "title": "Models set up for a displaced structure reproduce Hamiltonian and Hessian", "statement": "The tight-binding model returned by md.Driver.electrons has, at every k point used, the Hamiltonian for the current displacements relative to the chemical potential, in the desired units, up to the neglect of matrix elements below 1e-10 times the maximum. In supercells, each orbital is put where its cell is. The mass-spring model returned by md.Driver.phonons has, at every q point, the Hessian of the free energy (possibly divided by masses), and at the zone center the matrix returned by hessian by default.", "quantifier": "all displacements, meshes, strides, lattices, supercells, numbers of processes", "why_tests_cant": "a statement about all meshes and displacements; errors cancel for symmetric test systems", "anchors": ["elphmod/md.py:444-487", "elphmod/md.py:489-511", "elphmod/el.py:770-815", "elphmod/ph.py:1916-1971"]}
{"id": "C121", "title": "Input parameters of ph.x, q2r.x, matdyn.x and epw.x survive writing and reading", "statement": "Parameters written to a file by bravais.write_ph, write_q2r, write_matdyn or write_epw are read back unchanged by read_ph, read_q2r, read_matdyn and read_epw: strings, booleans, integers and floating-point numbers alike, numbered parameters such as amass(1), amass(2) as lists, and parameters that have not been given are absent. The q points of matdyn.x are read up to rounding to the printed digits. Comments, blank lines and the case of keys do not matter.", "quantifier": "all dictionaries of parameters (any subset of the supported keys, any values), all lists of q points", "why_tests_cant": "a statement about all strings and numbers that may occur as values; regular expressions with a loop until no change is left behave differently for rare characters", "anchors": ["elphmod/misc.py:510-630", "elphmod/bravais.py:2224-2518"]}
{"id": "C122", "title": "Input files of pw.x are read as they have been written", "statement": "What bravais.write_pwi writes is read back by read_pwi: all supported parameters of the namelists &CONTROL, &SYSTEM, &ELECTRONS, &IONS and &CELL (the last two if atoms or cell move), lattice parameters celldm(i) with their positions in the list, atomic species with masses and pseudopotentials, positions and their units, k points and lattice vectors, the latter rounded to the printed digits.", "quantifier": "all structures: any parameters, any number of species, atoms and k points, any kind of positions and k points", "why_tests_cant": "a statement about all strings, numbers and combinations of cards; tests compare a few structures", "anchors": ["elphmod/bravais.py:1796-2010", "elphmod/misc.py:510-630"]}
{"id": "C123", "title": "Input files of Wannier90 are read as they have been written", "statement": "What bravais.write_win writes is read back by read_win: numbers of bands and Wannier functions, energy windows, numbers of iterations, logical values, projections, path in the Brillouin zone, cell, atoms, mesh and k points, the latter rounded to nine decimals.", "quantifier": "all structures: any parameters, any number of projections, atoms and k points", "why_tests_cant": "a statement about all strings and numbers; there is no test of this pair of functions", "anchors": ["elphmod/bravais.py:2012-2143", "elphmod/bravais.py:2145-2222"]}
{"id": "C124", "title": "Dynamical matrices on the whole mesh are restored from irreducible points", "statement": "For a crystal on a triangular lattice which is symmetric under rotations by 120 degrees and the reflection of the first axis, with each atom mapped onto an image of itself, ph.q2r with the dynamical matrices at the irreducible points of an nq x nq mesh (in any order) fills the whole mesh with the dynamical matrices of the crystal: no entry is left uninitialized, no index is out of range, none is wrong. On a square lattice, where the rotation is disabled, everything set is right, points related by signs of the components are sufficient, but the irreducible points are not.", "quantifier": "all mesh sizes, all crystals with the symmetry (any number of atoms, any positions, any force constants), all orders of points", "why_tests_cant": "an identity between exponential sums for all force constants and meshes; the only test compares interpolated frequencies for one material, and unset entries come from uninitialized memory, which may happen to be zero", "anchors": ["elphmod/ph.py:1869-1925"]}
{"id": "C125", "title": "Writing and reading force constants preserves a mass-spring model", "statement": "If the force constants which ph.Model.to_flfrc writes for an arbitrary mesh are read again, the new model has the same dynamical matrices as the original one at all points of the mesh, even if the range of the original model exceeds the mesh. For a model which has been read from force constants, to_flfrc with the original mesh writes exactly these force constants again.", "quantifier": "all models (any number of atoms, any lattice vectors, any masses), all meshes, with and without division by masses, all numbers of processes", "why_tests_cant": "an identity between exponential sums for all models and meshes; tests compare single files", "anchors": ["elphmod/ph.py:969-1013", "elphmod/ph.py:313-318"]}
{"id": "C126", "title": "Sums over atomic projections include exactly the selected orbitals, each once", "statement": "proj_sum returns for each group the sum of the projections onto the orbitals selected by at least one name in the group. Overlapping selections count once. A selection agrees with an orbital if all given components of the name (element, number of the atom, principal quantum number, angular momentum, symmetry label) are equal, so that 'S' selects neither 'Si' nor 'Sn' and missing components are summed over. The optional last value completes the sum over groups to one.", "quantifier": "all lists of orbitals with valid names, all groups of selections with nested braces, all projections", "why_tests_cant": "the number of combinations of missing components, overlapping selections and braces is unlimited; the correctness of the regular expression for all names cannot be tested", "anchors": ["elphmod/el.py:1229-1291"]}
{"id": "C127", "title": "Names of orbitals from projwfc.x are unique and number the atoms", "statement": "read_projwfc_out returns the names of the atomic states in the order of the file. Orbitals which occur once have no number, others are numbered in the order of their occurrence. All names are different. If the states are sorted by atoms and atoms of the same element have the same different orbitals, the number is the one of the atom among the atoms of this element. The result does not depend on the order in which Python runs through the set of names.", "quantifier": "all lists of states, all surrounding lines, all orders of the set of names", "why_tests_cant": "the order of a set of strings differs from run to run because of hash randomization, so that any number of successful runs does not exclude different results", "anchors": ["elphmod/el.py:1158-1227"]}
{"id": "C128", "title": "Updating the short-range part keeps the electron-phonon coupling on the original meshes", "statement": "After sample_orig, any change of Born charges, quadrupoles, dielectric tensor or other parameters of the long-range terms and update_short_range, Model.g returns the same coupling as before at all points of the original q and k meshes. Elsewhere, it returns the sum of the Fourier transform of the new short-range part and the new long-range part.", "quantifier": "all models with lattice vectors of Wigner-Seitz cells, all meshes, all old and new long-range terms (or none), all previous calculations (states of the cache)", "why_tests_cant": "an identity between exponential sums for all models and meshes and arbitrary parameters; the outcome depends on the wave vector of the previous call", "anchors": ["elphmod/elph.py:343-383", "elphmod/elph.py:90-203", "elphmod/elph.py:1009-1092"]}
{"id": "C129", "title": "Energies and Fermi level from output of pw.x", "statement": "For every output of pw.x made of lines in its formats in any order and number (e.g. of a structural relaxation), read_pwo returns the energies of the last self-consistent calculation in the output relative to the last Fermi level (or middle of the gap), the last number of electrons and the last total energy. read_Fermi_level returns the last Fermi level or highest occupied level, and None if there is none.", "quantifier": "all lists of items of output, all numbers of k points and states, all numbers which fit their columns, all intermediate lines without keywords", "why_tests_cant": "the numbers of lines and rows and the order of items vary without bound; the number of rows per k point depends on the number of states modulo eight; touching columns occur for rare values", "anchors": ["elphmod/el.py:1293-1380"]}
{"id": "C130", "title": "Band energy and entropy from output of pw.x", "statement": "read_eps_nk_from_qe_pwo returns the energies, k points, weights, smearing and Fermi level written last in the output and the corresponding occupations. eband is the weighted sum of energies times occupations of the selected bands, demet_from_qe_pwo minus the weighted sum of entropies of the selected bands times the smearing, both in Ry. Bands which are selected more than once (with positive or negative index) count once.", "quantifier": "all outputs, all numbers of k points and bands, all smearing functions, all subsets of bands with valid indices", "why_tests_cant": "all numbers of bands modulo eight and all positions of the sections in the file; the sums range over arbitrary energies, weights and subsets", "anchors": ["elphmod/el.py:1415-1612"]}
{"id": "C131", "title": "Coulomb kernels of the long-range terms at small and large wave vectors", "statement": "For small wave vectors, the kernels of the long-range terms of dynamical matrix and electron-phonon coupling approach the bare Coulomb interaction 2 pi e^2/(A |K|) in two dimensions (with a minus sign for out-of-plane dipoles) and the screened one 4 pi e^2/(V K eps K) in three dimensions, whatever the range-separation parameters L and alpha. For large wave vectors, the kernel of a slab with parameter L falls off like exp(-|K| L).", "quantifier": "all lattices, dielectric tensors and range-separation parameters, all directions of the wave vector", "why_tests_cant": "limits and asymptotic bounds cannot be established by evaluating the kernel at finitely many wave vectors", "anchors": ["elphmod/ph.py:357-378", "elphmod/ph.py:442-474"]}
{"id": "C132", "title": "Bose-Einstein function is the mean number of quanta", "statement": "For every positive argument up to the cutoff, bose_einstein(x) equals the mean number of quanta of a harmonic oscillator, i.e., the ratio of the infinite sums of k exp(-k x) and exp(-k x). It decreases with x and satisfies detailed balance, n(x) = exp(-x) [1 + n(x)], and n(-x) = -[1 + n(x)]. Beyond the cutoff, it stays at its value at the cutoff, which exceeds the exact result.", "quantifier": "all real arguments other than zero", "why_tests_cant": "infinite sums and a continuum of arguments", "anchors": ["elphmod/occupations.py:17-23"]}
{"id": "C133", "title": "Electron-phonon coupling in XML files", "statement": "read_xml_files returns, for every requested q point, displacement, k point of the mesh and pair of selected bands (in the order requested, negative indices counting from the end), the value found in the corresponding file of Quantum ESPRESSO (nosym), whatever the order of k points, shifts by reciprocal lattice vectors, other lines and number of processes. What write_xml_files writes can be read again with relative errors of real and imaginary part below 15 digits.", "quantifier": "all files of the described form, meshes, bands, selections of bands, lattices and numbers of processes", "why_tests_cant": "arbitrary order of points and values, all sizes; rounding errors of coordinates must not move a point to a neighbouring cell of the mesh for any lattice", "anchors": ["elphmod/elph.py:1428-1505", "elphmod/elph.py:1507-1572"]}
{"id": "C134", "title": "Energy and forces for i-PI are consistent", "statement": "Calling the driver with Cartesian positions returns half the free energy in Ry (i.e., in Hartree) and forces that are minus its derivative with respect to the positions, so that a molecular-dynamics run conserves the total energy. The result depends on the positions only, not on earlier calls or on the eigenvectors chosen, collective translations do not matter, the forces sum to zero, and the virial vanishes. Random displacements have no collective component, and no component exceeds the amplitude given.", "quantifier": "all models, meshes, occupation functions that decrease strictly, positions, trajectories, masses, and random numbers", "why_tests_cant": "conservation of energy along arbitrary trajectories and derivatives in all directions, for any choice of degenerate eigenvectors", "anchors": ["elphmod/md.py:882-904", "elphmod/md.py:174-186"]}
{"id": "C135", "title": "Saved drivers can be restored and drivers are independent", "statement": "Driver.save leaves the driver unchanged, and Driver.load returns a driver with the same data, without interactive plots and shared memory. Results of a driver do not depend on what happens to other drivers.", "quantifier": "all drivers with dense or sparse matrices, all states, successful and failed attempts", "why_tests_cant": "all combinations of attributes, exceptions and other drivers in the same session", "anchors": ["elphmod/md.py:825-880", "elphmod/md.py:194-221", "elphmod/md.py:93-172"]}
{"id": "C136", "title": "Coupling from text files is assigned to the right matrix elements", "statement": "coupling returns, for each q point, the values listed in the corresponding file for the selected modes, k points and bands, NaN where the file lists nothing, on any number of processes, regardless of comments, additional columns, and bands outside the selected range. With completion, values at irreducible k points are sufficient for symmetric data, and values listed are not changed.", "quantifier": "all files (any order and number of lines, comments, additional columns), numbers of modes, bands, k points, offsets, q points, and processes", "why_tests_cant": "arbitrary files and ranges of bands; negative indices alias other elements silently", "anchors": ["elphmod/elph.py:1094-1182"]}
{"id": "C137", "title": "Coupling, frequencies and range separation from EPW output", "statement": "read_EPW_output returns, for each of the given q points, the coupling printed for the first occurrence of this q point (up to lattice vectors and the tolerance) in the output, for each k point of the mesh, mode and pair of bands, in eV or eV to the power of 3/2; other points are ignored and missing values are NaN. read_prtgkk returns frequencies and coupling by position, read_L the last range-separation parameter.", "quantifier": "all outputs with any number of q and k points in any order, arbitrary text in between, all meshes, lists of q points, tolerances below one half, numbers of bands and modes", "why_tests_cant": "arbitrary outputs, orders of points and lists of q points", "anchors": ["elphmod/elph.py:1184-1307", "elphmod/elph.py:1309-1361", "elphmod/elph.py:1363-1386"]}
{"id": "C138", "title": "Tight-binding models from Wannier90 and RESPACK data", "statement": "el.Model distributes each hopping evenly among the lattice vectors with minimal distances listed in the _wsvec.dat file, whatever the order of its entries. The Hamiltonian stays the same on the original k mesh and Hermitian everywhere, in eV or Ry, and lattice vectors are unique. The shape of the k mesh is derived from the lattice vectors. RESPACK data is assigned to the right points of the mesh.", "quantifier": "all Wannier90 data with any number of orbitals and lattice vectors, all _wsvec.dat files, k points, and meshes", "why_tests_cant": "Hamiltonian at arbitrary k points for arbitrary hoppings and lists of vectors", "anchors": ["elphmod/el.py:166-247", "elphmod/el.py:746-768"]}
{"id": "C139", "title": "Projected bands from projwfc.x", "statement": "read_atomic_projections and read_atomic_projections_old return the energies (relative to the Fermi level if requested), projections onto atomic orbitals (and the remaining weight if requested) and k points in the file. If bands are ordered, energies and projections are permuted in the same way. The path distance between two points is never less than their distance.", "quantifier": "all files with any number of bands, orbitals and k points, arbitrary tags, attributes in any order, any line breaks, all permutations of bands", "why_tests_cant": "arbitrary files and permutations", "anchors": ["elphmod/el.py:956-1076", "elphmod/el.py:1078-1201"]}
{"id": "C140", "title": "Small readers of band structures", "statement": "read_bands_plot assigns energies to the right points and bands, read_symmetry_points returns the coordinates in all respective lines, read_wannier90_eig_file sets exactly the elements listed in the file whatever the order, read_decayH returns the pairs in all lines with two columns, and read_energy_contributions_scf_out the values of the last lines that begin with the respective words.", "quantifier": "all files with any number of lines and other text in between", "why_tests_cant": "arbitrary files", "anchors": ["elphmod/el.py:908-932", "elphmod/el.py:934-954", "elphmod/el.py:1382-1411", "elphmod/el.py:1614-1647", "elphmod/el.py:1694-1748"]}
{"id": "C141", "title": "Displacement patterns from ph.x", "statement": "read_patterns returns the displacement patterns of all given q points on any number of processes.", "quantifier": "all pattern files with arbitrary text between sections, lists of q points, numbers of representations and processes", "why_tests_cant": "arbitrary files, lists of q points and numbers of processes", "anchors": ["elphmod/elph.py:1388-1425"]}
{"id": "C142", "title": "Localized models represent sampled short-range functions exactly", "statement": "If a Hamiltonian, dynamical matrix, interaction or coupling is a Fourier sum over shortest bonds with equal coefficients for equivalent bonds of the same length, the model obtained by k2r or q2r from samples on the mesh reproduces it at all wave vectors, not only at those on the mesh. In particular, the models returned by elphmod.models.chain.create, graphene.create and tas2.create have the Hamiltonian, dynamical matrix, coupling and interaction defined in the same module everywhere.", "quantifier": "all hopping parameters, force constants, masses and interaction strengths, lattice constants between 1 and 100 bohr, all real wave vectors, units, normalisations, numbers of processes; for the general statement all lattices, positions and meshes", "why_tests_cant": "wave vectors off the mesh and arbitrary parameters", "anchors": ["elphmod/models/chain.py:60-109", "elphmod/models/graphene.py:128-180", "elphmod/models/tas2.py:313-357", "elphmod/el.py:1480-1586", "elphmod/ph.py:1916-1971", "elphmod/elph.py:1009-1092", "elphmod/elel.py:150-207"]}
{"id": "C143", "title": "Phonon models from dynamical matrices reproduce them", "statement": "If the files given to ph.Model list a dynamical matrix for each point of the q mesh, up to rounding errors and reciprocal lattice vectors, and the matrices obey time-reversal symmetry, the model reproduces them (divided by the square roots of the masses if requested) at all points of the mesh, whatever the distribution of the points over the files and their order. With long-range terms, these are subtracted and added at the points in the files. If a file is missing, initialization fails; if a point is missing, the result there is arbitrary.", "quantifier": "all meshes, lattices, positions, masses, matrices, lists of files, numbers of processes and contents of uninitialized memory", "why_tests_cant": "arbitrary files and content of uninitialized memory", "anchors": ["elphmod/ph.py:202-325", "elphmod/ph.py:512-539"]}
{"id": "C144", "title": "Coulomb interactions from files", "statement": "read_orbital_Coulomb_interaction returns the tensor in the file with the indices within each pair of orbitals swapped, its density-density part the elements with equal indices in each pair, whatever the order of the lines; read_local_Coulomb_tensor keeps the order of indices. elel.Model from such files has the screened interaction plus the difference between the two bare interactions at all points of the mesh; from dat.Wmat, it has the interaction in the file.", "quantifier": "all files with lines in any order, q points with rounding errors and reciprocal lattice vectors, meshes, lattices, numbers of orbitals and processes", "why_tests_cant": "arbitrary files; contents of uninitialized memory", "anchors": ["elphmod/elel.py:97-148", "elphmod/elel.py:284-343"]}
{"id": "C145", "title": "Decay of force constants, coupling and hopping with distance", "statement": "ph.Model.decay returns, for each pair of atoms in each lattice vector with nonzero force constants, the distance between the atoms (up to the tolerance of the search for nearest neighbors) and the Frobenius norm of the force constants; decay_epmate and decay_epmatp of electron-phonon models return, for each lattice vector with nonzero coupling, its length in angstrom and the largest modulus of the coupling matrix elements; decayH returns the same for the hopping in rydberg, for all lattice vectors in the file.", "quantifier": "all models: any lattice, positions, masses, lists of lattice vectors and matrices", "why_tests_cant": "arbitrary geometry and matrices", "anchors": ["elphmod/ph.py:907-923", "elphmod/elph.py:713-749", "elphmod/el.py:1650-1692", "elphmod/bravais.py:1296-1314"]}
{"id": "C146", "title": "PWscf input files have the structure of the model", "statement": "ph.Model.to_pwi writes lattice vectors and atomic positions from which those of the model are recovered exactly, each species once in the order of the first atoms, independent of the order of Python sets; masses are those of all atoms of the species; md.Driver.to_pwi writes the displaced positions and the k mesh of the driver.", "quantifier": "all lattices, positions, displacements, masses, names of atoms, k meshes and orders of sets", "why_tests_cant": "arbitrary structures; nondeterministic set order", "anchors": ["elphmod/ph.py:931-967", "elphmod/md.py:800-823"]}
{"id": "C147", "title": "Collection of EPW input", "statement": "The command ph2epw copies the directory with displacement patterns, the dynamical matrices of all points up to the first missing file, and the potentials that exist for these points, to the names EPW expects, and changes no other file. If the target directory with patterns exists already, nothing is changed. It fails before copying if there is not exactly one directory with patterns. Environment variables take precedence over arguments.", "quantifier": "all file systems, names, numbers of points, environment variables", "why_tests_cant": "arbitrary states of the file system", "anchors": ["elphmod/elph.py:1625-1693"]}
{"id": "C148", "title": "Structures from VASP and densities from pp.x", "statement": "readPOSCAR returns the lattice vectors and positions described by the file; read_pp_density returns the density in the order of the file and its integral over the unit cell.", "quantifier": "all files with the structure written by VASP or pp.x, any numbers, elements and blank lines", "why_tests_cant": "arbitrary files", "anchors": ["elphmod/bravais.py:2525-2562", "elphmod/el.py:1750-1838"]}
{"id": "C149", "title": "Force constants and dynamical matrices from XML files", "statement": "read_flfrc_xml returns all quantities in the XML file: the lattice in bohr, masses in rydberg units and names of all atoms, positions in bohr, dielectric tensor and effective charges if present, and either the force constants for all pairs of atoms and lattice vectors, with the first Cartesian index running fastest in the file, or all q points in Cartesian coordinates with their dynamical matrices, whatever the order of elements in the file.", "quantifier": "all XML trees, structures, meshes, numbers of q points and values", "why_tests_cant": "arbitrary files", "anchors": ["elphmod/ph.py:1433-1559"]}
{"id": "C150", "title": "Wannier functions and real-space grids from XSF files", "statement": "read_xsf returns header and numbers written by write_xsf up to rounding (the order of data aside, see C14). real_space_grid samples the parallelepiped including both ends. el.Model with read_xsf stores Wannier function n from file n + 1 for any number of processes, normalized with respect to dV if requested, together with the grid and its volume element dV, and returns the same from the buffer; missing files raise an exception.", "quantifier": "all headers, atoms, grids, data, numbers of functions and processes, initial contents of the buffer", "why_tests_cant": "arbitrary grids, numbers and numbers of processes", "anchors": ["elphmod/misc.py:332-508", "elphmod/el.py:252-297"]}
{"id": "C151", "title": "Interpolation of dynamical matrices with external programs is safe for any order of processes", "statement": "ph.interpolate_dynamical_matrices: in every interleaving of the MPI processes, q2r.x is run on fildyn0 and on the files of all given q points, each of which has been written and completed by q2qstar.x before; all processes return the model made from these force constants; no process blocks another forever; with clean=True, all written files and no others are removed, but not before they have been read. The files hold the given q points in units of 2 pi / alat, dynamical matrices from which Model obtains the given ones, and dielectric tensor and effective charges at Gamma only.", "quantifier": "for all numbers of processes and q points, all schedules, all options, lattices, masses and matrices", "why_tests_cant": "The number of interleavings grows exponentially, and a test would see only a few of them; the external programs are not available in tests.", "anchors": ["elphmod/ph.py: interpolate_dynamical_matrices, write_flfrc, write_q", "elphmod/MPI.py: distribute"]}
{"id": "C152", "title": "Diagrams are successive derivatives of the grand potential", "statement": "For a Hamiltonian H + t V on a mesh of k points, diagonalized independently for each t (arbitrary order, phases and mixtures of degenerate states), the derivative of diagrams.grand_potential with respect to t is diagrams.first_order, the derivative of which is diagrams.phonon_self_energy for q = 0, the derivative of which is diagrams.triangle for q = Q = 0, all with V in the basis of the eigenstates as coupling. For different perturbations, the derivative of the self-energy is the mean of the triangles for both orders of the couplings.", "quantifier": "for all meshes, numbers of bands, Hermitian Hamiltonians, perturbations, temperatures, values of t (including level crossings) and smooth smearings", "why_tests_cant": "Tests compare finite differences for one model at one displacement; agreement at crossings of bands and for arbitrary conventions of the eigenvectors is a statement about all perturbations.", "anchors": ["elphmod/diagrams.py: grand_potential, first_order, phonon_self_energy, triangle"]}
{"id": "C153", "title": "Results do not depend on the choice of eigenvectors", "statement": "With couplings transformed into the basis of the eigenvectors, the results of diagrams.phonon_self_energy (static and dynamic), polarization, triangle, first_order, phonon_self_energy_fermi_shift and double_fermi_surface_average do not depend on which eigenvectors the eigensolver returns (phases and mixtures of degenerate states, order of the bands).", "quantifier": "for all meshes, Hamiltonians with any degeneracies, pairs of diagonalizations, couplings, temperatures, smearings, cutoffs and windows", "why_tests_cant": "An eigensolver returns one choice only; a test sees one library version and cannot enumerate the continuous set of unitary mixtures.", "anchors": ["elphmod/diagrams.py: phonon_self_energy, polarization, triangle, first_order, phonon_self_energy_fermi_shift, double_fermi_surface_average"]}
{"id": "C154", "title": "Phonon renormalization and supercell mapping commute", "statement": "Adding diagrams.phonon_self_energy (and at q = 0 diagrams.phonon_self_energy_fermi_shift) to the dynamical matrices on a mesh and mapping the result onto a supercell with ph.Model.supercell gives the same dynamical matrices as mapping all models onto the supercell first and adding the self-energy of the supercell, calculated on the folded meshes with el, ph and elph models of the supercell. The grand potential of the supercell is that of the unit cell times the number of cells, and the forces from first_order are the same for equivalent atoms.", "quantifier": "for all models, supercells, meshes that fold onto each other (including all diagonal supercells with numbers of points divided by the numbers of cells), diagonalizations in unit cell and supercell, temperatures, smearings, cutoffs, windows and frequencies", "why_tests_cant": "The test suite checks one model with one supercell and one mesh; that conventions for phases, prefactors and arbitrary eigenvectors fit together for all models is a universal statement.", "anchors": ["elphmod/diagrams.py: phonon_self_energy, phonon_self_energy_fermi_shift, grand_potential, first_order", "elphmod/elph.py: Model.supercell", "elphmod/ph.py: Model.supercell", "elphmod/el.py: Model.supercell"]}
{"id": "C155", "title": "Molecular dynamics is size-consistent", "statement": "For a md.Driver of a supercell (option supercell, or built from the supercell models) with the displacements of the unit cell repeated in all cells, the chemical potential is that of the unit-cell driver on the corresponding k mesh, free_energy is larger by exactly the number of cells, jacobian yields the same forces for equivalent atoms, and hessian is the folded Hessian of the unit cell. With unscreen=True, the Hessian of the undisplaced supercell is given by the original force constants of the supercell, even though they have been unscreened in the unit cell, Fourier transformed and screened in the supercell.", "quantifier": "for all electron, phonon and coupling models, supercells, meshes that fold onto each other, displacements of the unit cell, diagonalizations of both systems, temperatures and smearings", "why_tests_cant": "Tests compare a few drivers for one model up to numerical tolerance; a wrong prefactor or phase convention that cancels for this model, or a dependence on the arbitrary eigenvectors of degenerate folded bands, would not be seen.", "anchors": ["elphmod/md.py: Driver.__init__, diagonalize, free_energy, jacobian, hessian"]}
{"id": "C156", "title": "Superconductivity parameters do not depend on cell size and matrix format", "statement": "md.Driver.superconductivity of a supercell driver with repeated displacements yields the same effective coupling strength, logarithmic second-moment average and minimum phonon energies as the driver for the unit cell with the corresponding q and k meshes. The branch for sparse matrices yields the same numbers as the one for dense matrices.", "quantifier": "for all models, supercells, complete meshes that fold onto each other, masses, thresholds, smearings, temperatures, and all choices of electronic and vibrational eigenvectors of the two systems", "why_tests_cant": "The test compares one unit-cell driver to one sparse supercell within a tolerance. The equality for all models relies on cancellations of numbers of cells between density of states, averaged coupling and phonon modes.", "anchors": ["elphmod/md.py: Driver.superconductivity, Driver.hessian", "elphmod/diagrams.py: double_fermi_surface_average"]}
{"id": "C157", "title": "Long-range terms are the same in supercells", "statement": "For a polar material (Born charges, quadrupoles, dielectric tensor, three- or two-dimensional), ph.Model.supercell yields a model whose dynamical matrix, including the long-range part with its correction for the acoustic sum rule, folds to that of the unit cell: sum over cells j of exp(iq R_j) D'(Q)_{i a, j b} = exp(iq R_i) D(q)_{a b} with Q the wave vector q in the basis of the supercell. Hence phonon modes of the unit cell are modes of the supercell with the same frequency. The long-range coupling g_lr of the supercell likewise sums up to that of the unit cell.", "quantifier": "for all supercells (in two dimensions within the plane), wave vectors, numbers of atoms, positions, charges, quadrupoles, masses, dielectric tensors, cutoffs, with and without separate in- and out-of-plane terms", "why_tests_cant": "Tests compare frequencies of one polar material in one supercell within a tolerance. Whether the separation parameter, the reciprocal lattice vectors and the prefactors of all branches are scaled consistently for every cell cannot be tested by examples.", "anchors": ["elphmod/ph.py: Model.supercell, prepare_long_range, generate_long_range, D_lr", "elphmod/elph.py: Model.g_lr"]}
{"id": "C158", "title": "Supercell coupling with any number of processes and with long-range terms", "statement": "elph.Model.supercell yields the same coupling for any number of MPI processes, with sparse=True and without. With long-range terms, the coupling of the supercell folds to that of the unit cell: sum over cells r, j of exp(iq R_r) exp(ik R_j) g'(Q, K)_{r x, i a, j b} = exp(iq R_i) exp(ik R_i) g(q, k)_{x a b}.", "quantifier": "for all couplings, supercells, numbers of processes, wave vectors, polar materials", "why_tests_cant": "Tests run on one or two processes with one material without long-range terms. Errors of the bookkeeping of processes or of phases only show for certain numbers of processes, cells and wave vectors.", "anchors": ["elphmod/elph.py: Model.supercell, Model.g, Model.g_lr"]}
{"id": "C159", "title": "Pictures of the Brillouin zone show the right values at the right place", "statement": "plot.plot(mesh, ...) returns an image with resolution * (kxmax - kxmin) columns and resolution * (kymax - kymin) rows (rounded), where each pixel shows the linear interpolation of the mesh data at the center of the pixel, taken from three mesh points (four for rectangular lattices) next to it; x runs from left to right and y from bottom to top. plot.double_plot(mesh, q, nq, ...) shows the same for functions of k and q: the image consists of Brillouin zones of k scaled down by nq around each q point; each pixel belongs to the closest q point; pixels of q points that are not given are set to 'outside'; and the returned outlines are exactly the boundaries of the scaled-down Brillouin zones.", "quantifier": "for all lattice angles of the library, meshes, periodic functions, sets of q points, image sections, resolutions, numbers of processes", "why_tests_cant": "Pictures are checked by eye. Flipped rows, exchanged axes, shifts by half a pixel or wrong assignment at boundaries are not visible for symmetric data.", "anchors": ["elphmod/plot.py: plot, double_plot", "elphmod/bravais.py: linear_interpolation"]}
{"id": "C160", "title": "Color bars do not spoil the image", "statement": "plot.colorbar(image, left, bottom, width, height, minimum, maximum) fills the given rectangle of the image with values that increase linearly from the minimum in the bottom row to the maximum in the top row and leaves all other pixels unchanged. By default, minimum and maximum are those of the image, so that the range of values of the image does not change.", "quantifier": "for all images (including pixels without value), rectangles within the image and limits", "why_tests_cant": "Tests cover no color bars; pictures are checked by eye. Errors occur at the edges of the image and for thin color bars, depending on the rounding of the coordinates.", "anchors": ["elphmod/plot.py: colorbar"]}
{"id": "C161", "title": "Calls made by all processes never block and give all processes the same data", "statement": "If all processes run the same script with calls of MPI.info, MPI.Buffer.get, MPI.load (with and without shared memory) and ph.Model(flfrc), then every process gets the content of the file (or None or an empty array if there is no file), no process waits forever, and each message is shown exactly once, in order, by the first process, not before all processes have called info. With shared memory, the first process of each node has written the data before any process continues. Errors found by one process end all processes with a message.", "quantifier": "for all numbers of processes, distributions over nodes, sequences of calls, contents of files, schedules of the processes and both permitted behaviors of broadcasts (waiting for receivers or not)", "why_tests_cant": "Deadlocks and races depend on the number of processes and on timing; tests run with one process or few schedules, and a test that hangs gives no answer.", "anchors": ["elphmod/MPI.py: info, Buffer.get, load, shm_split, shared_array, SharedArray", "elphmod/ph.py: Model.__init__", "elphmod/bravais.py: primitives"]}
{"id": "C162", "title": "Any sequence of changes of the cell leaves the spectrum unchanged", "statement": "Starting from a tight-binding or phonon model without repeated lattice vectors, any sequence of calls of standardize(), supercell(N1, N2, N3) with linearly independent vectors, order_orbitals/order_atoms with a permutation (negative indices allowed) and shift_orbitals/shift_atoms succeeds. The eigenvalues of the resulting model at any wave vector are, including multiplicities, the eigenvalues of the original model at all wave vectors that are folded onto it, whose number is the product of the absolute determinants. In particular sums of any function over the energies agree, and a supercell of a supercell has the spectrum of the supercell given by the product of the matrices.", "quantifier": "for all models, all finite sequences of calls with any arguments, all wave vectors", "why_tests_cant": "Tests compare a few eigenvalues for single supercells; the claim concerns all sequences of calls, left-handed and non-diagonal supercells, all wave vectors and the completeness of the spectrum.", "anchors": ["elphmod/el.py: Model.standardize, Model.supercell, Model.order_orbitals, Model.shift_orbitals", "elphmod/ph.py: Model.standardize, Model.supercell, Model.order_atoms, Model.shift_atoms", "elphmod/bravais.py: supercell, to_supercell"]}
{"id": "C163", "title": "Coupling does not depend on number, order and history of processes", "statement": "elph.Model.g (with any communicator) and elph.sample (with shared_memory=False) return the same coupling for any number of processes, in whatever order the processes advance and however long they wait for each other in collective operations, also if the individual processes have used the model before in different ways, so that the Fourier transforms they remember belong to different wave vectors. The result equals the double Fourier transform plus long-range terms (transformed to the band basis if eigenvectors are given). Any sequence of such calls ends on all processes.", "quantifier": "for all models, numbers of processes, sequences of calls, wave vectors, states of the caches of all processes, and all schedules", "why_tests_cant": "Which process reaches a collective operation first, and which wave vector each process has cached, differs from run to run; a stale cache on a single process is only seen for special sequences of calls on several processes.", "anchors": ["elphmod/elph.py: Model.g, sample", "elphmod/MPI.py: distribute, matrix, shared_array"]}
{"id": "C164", "title": "Sequences of changes of the cell with long-range terms", "statement": "Let long-range terms have been set up with prepare_long_range(), and let any sequence of ph.Model.order_atoms, shift_atoms, standardize, and supercell be called. Afterwards, positions, masses, Born charges, quadrupoles, reciprocal vectors, list of reciprocal lattice vectors, and Gamma-point correction belong together as if prepare_long_range() had been called for the final cell. Without supercells, the dynamical matrix at any wave vector has the same spectrum as before, including long-range terms. With supercells, each mode (including long-range terms) at a wave vector is found in the supercell with the same energy, at the wave vector of the supercell. For orthogonal cells and multiples of primitive vectors, this holds without any condition on the cutoff. A cutoff chosen by the user remains in effect.", "quantifier": "for all cells, atoms, masses, Born charges, quadrupoles, dielectric tensors, force constants, wave vectors, and all sequences of calls", "why_tests_cant": "Each call updates only some of the attributes, and the long-range terms depend on all of them; only particular sequences of calls reveal a forgotten one.", "anchors": ["elphmod/ph.py: Model.order_atoms, Model.shift_atoms, Model.standardize, Model.supercell, Model.prepare_long_range, Model.D, Model.D_lr"]}
{"id": "C165", "title": "Mass-spring models are independent of each other", "statement": "Changing a ph.Model with order_atoms, shift_atoms, standardize, sum_rule_correction, or q2r changes neither other models obtained from it (or from which it has been obtained) via supercell, unit_cell, copy, or deepcopy, nor arrays passed to the constructor. On all processes, each model has the same value it would have if all models had their own copies of all data.", "quantifier": "for all sequences of calls on any number of models, all values, and all processes", "why_tests_cant": "Whether two models share memory only matters if one of them is changed later; the effect is that the other model silently becomes inconsistent, and it depends on the order of calls and on the rank.", "anchors": ["elphmod/ph.py: Model.__init__, Model.supercell, Model.unit_cell, Model.order_atoms, Model.shift_atoms, Model.standardize, sum_rule_correction, q2r", "elphmod/md.py: Driver.__init__"]}
{"id": "C166", "title": "Translational invariance from models to simulations", "statement": "If the acoustic sum rules have been applied to the force constants and, via elph.Model.asr, to the electron-phonon coupling of a unit cell, then in a simulation with md.Driver on any supercell of it, the forces on all atoms add up to zero and the Hessian annihilates all collective displacements, for all positions of the atoms and with or without unscreening. elph.Model.asr suppresses all coupling to collective displacements, keeps the coupling Hermitian and leaves a coupling that already fulfills the sum rule unchanged.", "quantifier": "For all models and supercells, all force constants and couplings, all long-range terms, positions of the atoms, numbers of electrons, temperatures, k meshes, and smearings with positive delta function.", "why_tests_cant": "The statement connects several modules and holds for a continuum of positions and for all supercells. A test with a given model can only check that the sum of forces is small, where deviations may compensate, and the remaining coupling via long-range terms shows up for special models only.", "anchors": "elphmod/elph.py: Model.asr, Model.supercell, Model.g; elphmod/ph.py: Model.supercell; elphmod/md.py: Driver.__init__, jacobian, hessian; elphmod/diagrams.py: phonon_self_energy, phonon_self_energy_fermi_shift"}
{"id": "C167", "title": "Optimization routines see a function and its derivative", "statement": "If md.Driver.free_energy and md.Driver.jacobian are handed over to an optimization routine, which passes its own arrays of displacements (new copies or always the same array, changed in place), the returned values are those of one and the same function of the displacements and its derivative, independent of the history, even though free_energy keeps the given array, changes it by removing the collective displacement and jacobian ignores its argument. Forces and force constants always belong to the displacements of the driver, and they are the same on all processes.", "quantifier": "For all parameters of the simulation, all sequences of calls of free_energy, jacobian, hessian, diagonalize, center_mass, random_displacements, from_xyz, and the driver itself, all changes of arrays by the user, all strategies of optimization, any number of steps, and all processes.", "why_tests_cant": "Whether results depend on previous calls and shared arrays cannot be settled by a test with given sequences of calls. In a test on one process, the first process is the only one, where random_displacements creates a new array.", "anchors": "elphmod/md.py: Driver.random_displacements, center_mass, diagonalize, free_energy, jacobian, hessian, from_xyz, __call__"}
{"id": "C168", "title": "Screening in two steps", "statement": "If the interaction and the coupling have been screened by all electronic transitions except for those within a target subspace (diagrams.polarization with subspace), and the screening by the subspace is added with diagrams.renormalize_coupling_band(nbnd_sub), the resulting coupling is the same as for screening by all bands. Accordingly, the phonon self-energy by all bands is the sum of the one without the subspace and diagrams.phonon_self_energy for the subspace with one partially and one fully screened coupling. The latter is Hermitian even without symmetrization, never hardens phonons, and is never larger than without screening. The screened interactions exist, are unique, and decrease with more screening.", "quantifier": "For all bands, orbitals, eigenvectors, k meshes, q points, k-dependent couplings, decreasing occupation functions, temperatures, thresholds eps, numbers of bands in the target subspace (for the interaction, all subspaces), and all positive semidefinite bare interactions.", "why_tests_cant": "The statement combines four functions, whose conventions for indices, complex conjugation, prefactors and handling of degenerate states have to match. Numerical tests for given models can neither exclude divergences nor establish the inequalities in general.", "anchors": "elphmod/diagrams.py: polarization, renormalize_coupling_band, Pi_g, phonon_self_energy"}
{"id": "C169", "title": "Tolerance and history of the chemical potential", "statement": "md.Driver starts the search of the chemical potential from the one of the previous displacements and stops as soon as the number of electrons is correct within the tolerance. If the same displacements are evaluated with different histories, free energies differ by no more than the tolerance times the difference of the chemical potentials, and forces by no more than twice the tolerance times the maximum coupling of an electronic state. Compared with the exact chemical potential, the free energy is never too large and too small by no more than the tolerance times the deviation of the chemical potential, and the error of forces is no more than the tolerance times the maximum coupling. If a structure is evaluated again, the chemical potential is kept. With Gaussian smearing, the search always ends, and the exact chemical potential exists.", "quantifier": "For all tight-binding models, couplings, displacements, temperatures, numbers of electrons, decreasing occupation functions with matching entropy, tolerances, thresholds, initial guesses and numbers of iterations of the search.", "why_tests_cant": "The sequence of displacements chosen by an optimizer is not known in advance, and small inconsistencies between energies and forces may go unnoticed in tests that do not happen to revisit a structure. Only an analytical bound covers all histories.", "anchors": "elphmod/md.py: Driver.find_Fermi_level, Driver.diagonalize, Driver.free_energy, Driver.jacobian; elphmod/occupations.py: find_Fermi_level"}
{"id": "C170", "title": "Models without matrix elements can be used", "statement": "After clear(), or if all matrix elements vanish, el.Model.H, ph.Model.D (short-range part), elel.Model.W, and elph.Model.g return zero plus the long-range terms on all processes, and standardize, symmetrize, order_*, shift_*, supercell, and unit_cell can be called as for any other model.", "quantifier": "For all models (any size, lattice vectors, and long-range terms), all wave vectors, all processes, and all sequences of method calls.", "why_tests_cant": "Whether there are any matrix elements left depends on the data and the threshold. Empty NumPy arrays lose their dimensions when created from lists, on one of several processes only. Tests with nonempty models never get there.", "anchors": "elphmod/el.py: Model.H, Model.clear, Model.standardize, Model.order_orbitals, Model.shift_orbitals, Model.supercell, Model.unit_cell; elphmod/ph.py: Model.D, Model.clear, Model.standardize, Model.order_atoms, Model.shift_atoms, Model.supercell, Model.unit_cell; elphmod/elel.py: Model.W, Model.supercell, Model.standardize; elphmod/elph.py: Model.g, Model.clear, Model.standardize"}
{"id": "C171", "title": "Interpolated models inherit the symmetries of the samples", "statement": "If the matrices or couplings sampled on a mesh are Hermitian, invariant under time reversal, or invariant under an operation of a space group (including screw axes and glide planes, mixed orbitals, and rotated displacements), the models set up by el.k2r, elel.q2r, ph.q2r, and elph.q2r have the same symmetry at all wave vectors, not only at those of the mesh.", "quantifier": "For all meshes, numbers of processes, lattices, positions, samples with the symmetry, operations compatible with the mesh, and all (real) wave vectors.", "why_tests_cant": "Symmetry at arbitrary wave vectors depends on how wigner distributes matrix elements over equivalent lattice vectors, for every geometry. Tests compare at a few wave vectors with finite accuracy.", "anchors": "elphmod/el.py: k2r, Model.H; elphmod/elel.py: q2r, Model.W; elphmod/ph.py: q2r, Model.D; elphmod/elph.py: q2r, Model.g; elphmod/bravais.py: wigner, short_range_model"}
{"id": "C172", "title": "Sum-rule corrections respect the symmetries of the crystal", "statement": "If force constants are invariant under an operation of the space group of the crystal, they still are after a sum-rule correction; more generally, corrections of force constants related by an operation are related by the operation. The forces between two atoms still do not depend on their order.", "quantifier": "For all numbers of atoms and lattice vectors, positions, masses, force constants, operations, and combinations of sum rules.", "why_tests_cant": "Symmetry must be preserved for arbitrary crystals and force constants. The minimal correction is the result of an orthogonalization of hundreds of constraints in a certain order, which itself has no symmetry.", "anchors": "elphmod/ph.py: sum_rule_correction, asr"}
{"id": "C173", "title": "Longitudinal optical modes are split from transverse ones in bulk but not in two-dimensional polar crystals", "statement": "Close to the center of the Brillouin zone, the dynamical matrix of a polar crystal with long-range terms is the one at the center plus the nonanalytic term 4 pi e^2 / volume (K.Z)(K.Z) / (K.epsilon.K), which depends on the direction of the wave vector only, for three-dimensional crystals, and the one at the center for two-dimensional ones. The term raises the frequencies of longitudinal optical modes and affects neither transverse nor, in neutral crystals, acoustic modes.", "quantifier": "For all numbers of atoms, positions, masses, Born charges, quadrupoles, positive-definite dielectric tensors, range-separation parameters, cutoffs, force constants, tolerances, and small wave vectors.", "why_tests_cant": "The statement is about a limit in which the summands diverge and involves sums over arbitrarily many reciprocal lattice vectors, which must not contribute.", "anchors": "elphmod/ph.py: Model.D, D_lr, prepare_long_range, generate_long_range"}
{"id": "C174", "title": "Energies are insensitive to rounding and to neglected matrix elements", "statement": "Neglecting small matrix elements (standardize with eps), writing and reading them with finite precision, and small changes of the wave vector change band energies by no more than a known multiple of the change, squared phonon frequencies likewise, phonon frequencies by the square root of a known multiple, and chemical potentials by no more than the energies.", "quantifier": "For all numbers of orbitals or displacements, matrices, lattice vectors, thresholds, wave vectors, bands, numbers of electrons, and occupation functions that decrease strictly.", "why_tests_cant": "Degenerate bands and band crossings exist for arbitrary matrices, where eigenvalues are not differentiable; tests show examples, not bounds.", "anchors": "elphmod/dispersion.py: dispersion; elphmod/el.py: Model.standardize, read_hrdat, write_hrdat; elphmod/ph.py: Model.standardize, sgnsqrt; elphmod/occupations.py: find_Fermi_level"}
{"id": "C175", "title": "Long-range coupling near the center of the Brillouin zone is that to dipoles and quadrupoles", "statement": "For small wave vectors K, the long-range coupling (elph.Model.g_lr) is a constant plus 8 pi i / Omega (K.Z / sqrt M) / (K.eps.K) plus the term of zeroth order from quadrupoles and positions in three dimensions (Froehlich, Vogl), i.e., it diverges with 1/K, and a constant plus 4 pi i / A (K.Z / sqrt M) / |K| in two dimensions, i.e., it is finite, not screened, and jumps.", "quantifier": "For all numbers of atoms, lattices, dielectric tensors, Born charges, quadrupoles, masses, range-separation parameters, cutoffs, atoms and directions, tolerances up to the first shell of reciprocal lattice vectors, and accuracies there is a region of wave vectors where it holds.", "why_tests_cant": "It is a statement about a limit, for all directions at the same time, with and without range separation in two dimensions, and for wave vectors close to the tolerance below which contributions are dropped.", "anchors": "elphmod/elph.py: Model.g_lr; elphmod/ph.py: Model.generate_long_range, Model.prepare_long_range"}
{"id": "C176", "title": "Diagrams have the symmetry of the electrons and of the coupling", "statement": "If an operation maps wave vectors linearly, relates the Hamiltonians at k and R k by a unitary matrix, and relates the coupling at (q, k) and (R q, R k) by the same matrices and a representation in the space of displacements, then the phonon self-energies at q and R q, static or dynamic, are related by that representation, renormalized frequencies are the same, sums over modes of double Fermi-surface averages are the same, triangles and first-order diagrams transform alike, and polarizations and susceptibilities at q and R q are the same for exchanged orbitals.", "quantifier": "For all mesh sizes, numbers of bands and displacements, Hamiltonians, diagonalizations (also of degenerate states, with unrelated phases at related wave vectors), couplings, temperatures, smearings, windows, operations and representations.", "why_tests_cant": "Eigenvectors at related wave vectors come from unrelated diagonalizations, and arbitrary rotations within degenerate subspaces cannot be enumerated; with tests, only special crystals and operations can be tried.", "anchors": "elphmod/diagrams.py: phonon_self_energy, phonon_self_energy2, double_fermi_surface_average, polarization, triangle, first_order, phonon_self_energy_fermi_shift, susceptibility"}
{"id": "C177", "title": "Symmetries found on a mesh are those of the data and form a group", "statement": "bravais.symmetries returns exactly those length-preserving maps of the lattice under which the data on the mesh are invariant within the tolerance, each once and as a permutation of the mesh points; without tolerance, they form a group, i.e., combinations and inverses are found too, and the number of equivalent points (bravais.images) divides the number of maps.", "quantifier": "For all mesh sizes, angles of 60, 90 and 120 degrees, data, tolerances, and both values of unity.", "why_tests_cant": "The group property involves all pairs of symmetries of arbitrary data on meshes of any size.", "anchors": "elphmod/bravais.py: symmetries, images, complete"}
{"id": "C178", "title": "Unfolding recovers the band structure of the unit cell", "statement": "For a supercell model made by `supercell` and any diagonalization of it at the folded wave vector, the weights of `unfolding_weights` turn the supercell spectrum into the spectrum of the unit cell at the given k or q point: weighted sums of any function of energies agree, states with nonzero weight have an energy of the unit cell, and weights at each energy add up to the number of bands of the unit cell there. For supercells with other matrices that differ by at most delta, weight further than Delta from the bands is at most d (delta / Delta)^2. Weights of each supercell state add up to one over all k points folded onto its own. The number of bands given for the unit cell does not affect the normalization.", "quantifier": "for all models, all nondegenerate supercells with any integer lattice vectors, all k and q points, all diagonalizations (any choice of degenerate eigenvectors), all functions of energies, all distorted supercell matrices, all deviations and distances", "why_tests_cant": "Tests unfold one model along one path and compare plots; freedom of degenerate eigenvectors, arbitrary supercells and arbitrary distortions cannot be enumerated.", "anchors": ["elphmod/dispersion.py:530-596", "elphmod/el.py:309-401", "elphmod/ph.py:558-640"]}
{"id": "C179", "title": "Saving and loading a tight-binding model", "statement": "A model that is saved with `el.Model.to_hrdat` and loaded with `el.Model` is the same model: lattice vectors in lexical order, and matrix elements that agree, in eV, within half a unit of the last decimal place of the file, no matter whether the saved and the loaded model use electronvolt or Rydberg and whether degeneracies are considered. Saving and loading once more changes nothing at all. Files of the original calculation with the same prefix do not affect the result.", "quantifier": "for all numbers of orbitals below 10000, all nonempty lists of lattice vectors and matrix elements that fit into the columns of the file, all values of the Rydberg energy, all combinations of units and arguments, all dates", "why_tests_cant": "Tests save one model to a fresh directory in one unit; combinations of units, columns that are nearly full, and repeated cycles of writing and reading are not enumerable.", "anchors": ["elphmod/el.py:166-247", "elphmod/el.py:590-600", "elphmod/el.py:602-744"]}
{"id": "C180", "title": "Frequency dependence of the phonon self-energy", "statement": "The dynamic result of `diagrams.phonon_self_energy` interpolates between the nonadiabatic limit of small frequencies, which is the static result (eps = 0) minus the contribution of pairs of states of equal energy, and zero, which it approaches as 1/omega for large frequencies. At imaginary frequencies, its magnitude decreases monotonically from the static value. It is analytic away from the real axis and, for decreasing occupations and time-reversal symmetry, has no positive imaginary part for any displacement pattern and any frequency with nonnegative real and positive imaginary part, i.e., phonons are damped, never amplified. The result for one frequency does not depend on the other frequencies passed.", "quantifier": "for all meshes, numbers of bands and modes, energies, couplings, q points on the mesh, decreasing occupations, excluded windows, displacement patterns, complex frequencies", "why_tests_cant": "Limits, analyticity, monotonicity and signs for all frequencies and couplings; a test evaluates finitely many frequencies of one model.", "anchors": ["elphmod/diagrams.py:262-492"]}
{"id": "C181", "title": "Free-energy surfaces have the symmetry of the crystal", "statement": "If Hamiltonian, force constants and coupling at q = 0 have a symmetry of the crystal (permutation of atoms, rotation of displacements, map of k points, unitary transformation of orbitals), a driver set up from them has it, too, with and without unscreening: symmetry-equivalent displacements of all atoms yield the same free energy, rotated forces, and the rotated Hessian, although the eigenvectors from the diagonalization routine are arbitrary and the chemical potential is determined anew. In particular, symmetric structures feel symmetric forces, so that an optimization does not break the symmetry.", "quantifier": "for all crystals, symmetry operations, meshes, numbers of atoms and orbitals, displacements, decreasing occupation functions, diagonalization routines and routines for the chemical potential meeting their specification", "why_tests_cant": "Symmetry must hold for all displacements and operations and any choice of eigenvectors; tests use one distortion.", "anchors": ["elphmod/md.py:93-172", "elphmod/md.py:223-442", "elphmod/md.py:882-904"]}
{"id": "C182", "title": "Bounds of the free energy and structural relaxation", "statement": "md.Driver.free_energy of any structure never exceeds the value expected from free_energy and jacobian of any other structure plus the energy of the springs C0 (unscreened force constants) for the difference of displacements, although the electrons are diagonalized and the chemical potential is determined anew. Hence: free_energy is continuous; no curvature (hessian) is larger than that of the springs; if the springs are unstable, it is unbounded from below; if the given force constants are stable, a structure of minimal free energy exists with and without unscreening; forces (without net force) vanish at all local minima; and steepest descent with steps up to the inverse of the largest eigenvalue of C0 lowers the free energy until the forces vanish.", "quantifier": "for all Hamiltonians, couplings linear in the displacements, symmetric force constants, meshes, structures, smooth decreasing occupation functions with entropy, temperatures > 0, diagonalization routines and routines for the chemical potential meeting their specification, all starting points and step sizes up to the bound", "why_tests_cant": "Statements about all structures at arbitrary distances and limits of infinite sequences of steps cannot be established by evaluating finitely many structures.", "anchors": ["elphmod/md.py:93-172", "elphmod/md.py:223-313", "elphmod/md.py:315-442"]}
{"id": "C183", "title": "Rotation sum rule and forces upon rotation", "statement": "The Born-Huang rotation sum rule offered by ph.sum_rule_correction (rsr=True) should mean that an infinitesimal rotation of the crystal leads to no force on any atom, and force constants for which this is the case already should be kept. The sum rule in the code exchanges the direction of the first and the position of the second atom, however, where that of Born and Huang exchanges direction and position of the second atom. Together with the acoustic sum rule, it still implies that the total force on each unit cell vanishes upon rotation and, for one atom per unit cell, that all forces vanish. For several atoms per unit cell, it is violated: a molecule of three atoms without any force upon rotation is changed by the correction, and another one with a force upon rotation is left as it is.", "quantifier": "positive part: for all numbers of atoms, lattice vectors (distinct, closed under inversion), primitive vectors, positions, positive masses, symmetric force constants and rotations; negative part: for all eps between 0 and 0.01 (first) or eps >= 0 (second), with and without acoustic sum rule", "why_tests_cant": "A test of the residual evaluates the same sum as the code; the relation between this sum and forces is a statement about all force constants and rotations, and agrees for all crystals with one atom per unit cell and all with pair forces only.", "anchors": ["elphmod/ph.py:1651-1781"]}
{"id": "C184", "title": "Acoustic phonons", "statement": "Force constants fulfilling the acoustic sum rule (translation leads to no force) have at least three zero frequencies at the center of the Brillouin zone, and at each wave vector where the crystal is stable, the three lowest eigenvalues of ph.Model.D are bounded by an explicit quadratic form of the wave vector which depends on the sums of force constants between unit cells and the total mass only: frequencies (ph.sgnsqrt) increase at most linearly with the distance from the center, with a known bound of the sound velocity. With the rotation sum rule as imposed by ph.sum_rule_correction, the bound holds without assumption of stability, with half the constant; in particular, the correction removes terms linear in the wave vector. The acoustic sum rule alone does not: there is a chain, unchanged by the correction without rotation sum rule, with eigenvalues down to -2 |sin q|, i.e., unstable at arbitrarily small wave vectors.", "quantifier": "for all numbers of atoms, lattice vectors (distinct, closed under inversion), positive masses, positions, symmetric force constants, wave vectors, and eigenvalue routines meeting their specification", "why_tests_cant": "A statement about all wave vectors and force constants; a test sees finitely many wave vectors, for which no bound on the slope at the center can be concluded.", "anchors": ["elphmod/ph.py:145-172", "elphmod/ph.py:1651-1786"]}
{"id": "C185", "title": "Derivatives of the free energy for any diagonalization", "statement": "The free energy of an electron-phonon model as a function of the atomic positions (md.Driver.free_energy) is differentiable everywhere, including structures with degenerate or crossing bands, and no matter which eigenvectors, order, phases, and bases of degenerate subspaces np.linalg.eigh yields for each structure: md.Driver.jacobian returns its derivative (with respect to all displacements if sum rules hold, otherwise relative to the center of mass), md.Driver.hessian returns the derivative of the forces, and the chemical potential is differentiable. Hence motion according to the forces handed over to i-PI conserves the energy exactly, also through band crossings; where the free energy has a local minimum, the Hessian has no negative eigenvalue; and if the Hessian of a stationary structure, such as the one a simulation is set up with, is negative for some pattern of displacements (imaginary phonon frequency), displacing the atoms accordingly by any small amount lowers the free energy.", "quantifier": "for all models, meshes, numbers of bands and atoms, structures, differentiable curves of structures, routines for eigenvectors and chemical potential meeting their specification, and smearing functions with positive continuous delta function", "why_tests_cant": "Differentiability at every structure for every choice of eigenvectors; finite differences in a test see one choice at a few structures and cannot distinguish small kinks from errors of the difference quotient.", "anchors": ["elphmod/md.py:223-442", "elphmod/md.py:882-904", "elphmod/occupations.py:25-83"]}
{"id": "C186", "title": "Charge-density waves in supercells", "statement": "If md.Driver is used with the option supercell, the free energy of the supercell with the same displacements in all cells is that of the driver for the unit cell times the number of cells, so the relaxed supercell never has a larger free energy per unit cell than any structure of the unit cell. If md.Driver.hessian of the driver for the unit cell has a negative eigenvalue for a wave vector other than zero that is commensurate with the supercell (imaginary phonon frequency), displacing the atoms of the supercell accordingly by any small amount lowers its free energy: there is a charge-density wave, even if the structure of the unit cell is not relaxed. Conversely, if no displacements of the supercell lower the free energy, the Hessian has no negative eigenvalues for all these wave vectors. For all wave vectors and structures, the electrons soften the phonons with respect to the unscreened force constants.", "quantifier": "for all models, supercells, meshes, numbers of bands and atoms, structures of the unit cell, polarizations, commensurate wave vectors, routines for eigenvectors and chemical potential meeting their specification, and smearing functions with positive continuous delta function", "why_tests_cant": "The relation between the Hessian for one cell and the energy landscape of all larger cells holds for infinitely many structures, wave vectors, and supercells; a test compares a few energies.", "anchors": ["elphmod/md.py:93-180", "elphmod/md.py:223-442", "elphmod/occupations.py:25-83"]}
{"id": "C187", "title": "Temperature and doping dependence of the free energy", "statement": "If a script changes the attributes kT and n of an md.Driver (as the examples do) and calls diagonalize and free_energy for the same structure, the results obey thermodynamics: the free energy is differentiable, its derivatives with respect to temperature and number of electrons are the negative electronic entropy and the chemical potential mu, although mu itself depends on both; it is a concave function of temperature and a convex function of the number of electrons; heating never raises the free energy and never lowers the entropy, adding electrons never lowers mu. The same holds for relaxed structures: the global minimum for the higher temperature has neither the larger free energy nor the smaller entropy. If one structure is lower in free energy at one temperature and another one at another temperature, both are equal at a temperature in between.", "quantifier": "for all drivers, meshes, numbers of bands and atoms, displacements, positive temperatures, numbers of electrons, diagonalization routines, root finders meeting their specification, and monotonic smearing functions", "why_tests_cant": "Concavity and derivatives involve all pairs of temperatures and fillings; a test compares the free energy for a few of them, and finite differences cannot tell a small inconsistency between entropy, occupation, and chemical potential from rounding.", "anchors": ["elphmod/md.py:93-108", "elphmod/md.py:194-276", "elphmod/occupations.py:25-148"]}
{"id": "C188", "title": "Free energy versus ground-state energy", "statement": "For a given structure, free_energy of md.Driver never exceeds the energy of any other state of the same number of electrons, given by an arbitrary density matrix (Hermitian, eigenvalues between zero and one) at each k point and including the energy of the lattice. The state of the driver is one of these states; its energy is the free energy plus kT times entropy, and its diagonal is what density returns. Hence the free energy is smaller than the energy of the ground state by at most 2 kT times the number of bands times the maximum of the entropy function (log 2 for Fermi-Dirac and 1/(2 sqrt(pi)) for Gaussian smearing), and it converges to the energy of the ground state for vanishing kT: results for small smearing can be trusted as energies of the crystal, uniformly in the structure.", "quantifier": "for all drivers with Hermitian matrices, meshes, numbers of bands and atoms, displacements, density matrices, temperatures, numbers of electrons, and external routines meeting their specification", "why_tests_cant": "The bound compares with a continuum of many-electron states and concerns a limit; a test compares a few temperatures with each other.", "anchors": ["elphmod/md.py:223-276", "elphmod/md.py:597-607", "elphmod/occupations.py:25-83"]}
{"id": "C189", "title": "No structural instability at high temperature", "statement": "Electrons soften the phonons of md.Driver by an amount inversely proportional to the temperature at most: for every structure, wave vector, and pattern of displacements, the quadratic form of the matrix returned by hessian is not smaller than that of the unscreened force constants minus 2 B / kT times the square of the coupling, averaged over k points (B is the maximum of the delta function, 1/4 for Fermi-Dirac and 1/sqrt(pi) for Gaussian smearing). Correspondingly, the free energy of any structure is bounded from below by energy and forces of any other structure. Hence, if the unscreened force constants are stable, there is a temperature above which, for any number of electrons, the forces vanish for one structure only (apart from collective displacements), this structure has the lowest free energy, and no structure has imaginary phonon frequencies. A driver set up with sufficiently large kT has its reference structure as the unique structure of lowest free energy: charge-density waves melt.", "quantifier": "for all drivers with Hermitian matrices, meshes, numbers of bands and atoms, structures, wave vectors, patterns of displacements, temperatures above the bound, numbers of electrons, thresholds, and external routines meeting their specification", "why_tests_cant": "The claim compares with the continuum of all structures and concerns all temperatures above a bound; a test relaxes from a few starting points at a few temperatures.", "anchors": ["elphmod/md.py:93-151", "elphmod/md.py:223-313", "elphmod/md.py:315-442", "elphmod/occupations.py:25-83"]}
{"id": "C190", "title": "Molecular dynamics is well defined", "statement": "Newton's equations with the forces returned by calling md.Driver have exactly one solution for all initial positions and velocities and all times, past and future, although energies cross and eigenvectors are chosen arbitrarily at each step: forces change at most proportionally to the displacements, with an explicit constant. Reversing the velocities reverses the trajectory, and the total momentum is conserved. If the unscreened force constants are stable, there is a structure without forces, and positions (relative to the center) and velocities along every trajectory remain limited for all times. If, moreover, the temperature is sufficiently high (C189), trajectories remain in the vicinity of the structure without forces, with an amplitude proportional to that at the beginning. Hence differences between trajectories of one model are due to the integrator or to rounding, never to the driver.", "quantifier": "for all drivers with Hermitian matrices and sum rules, meshes, numbers of bands and atoms, initial positions and velocities, nonzero (positive) masses, times, and external routines meeting their specification", "why_tests_cant": "The claim is about the existence, uniqueness and long-time behavior of solutions of differential equations; a test follows a few trajectories of a discrete integrator for a finite time.", "anchors": ["elphmod/md.py:882-904", "elphmod/md.py:223-313", "elphmod/md.py:315-442"]}
{"id": "C191", "title": "Accuracy of relaxed structures", "statement": "The function free_energy of md.Driver is differentiable with respect to all displacements at once, with the (centered) result of jacobian as derivative. If the unscreened force constants are stable and the temperature is sufficiently high, small forces guarantee an accurate structure, however it has been found: the squared distance of any structure from the relaxed one is at most the squared norm of the forces divided by the square of a curvature kappa, and its free energy exceeds the minimum by at most the squared norm of the forces divided by 2 kappa, where kappa is the stiffness of the unscreened springs reduced by the softening of C189. Steepest descent with sufficiently small steps tau from any structure converges to the relaxed structure exponentially, at least like (1 - tau kappa)^i. Changing the unscreened force constants or the constant forces displaces the relaxed structure by at most the norm of the resulting change of the forces divided by kappa.", "quantifier": "for all drivers with Hermitian matrices, meshes, numbers of bands and atoms, structures, temperatures above the bound, step sizes below the bound, numbers of steps, changes of force constants and forces, and external routines meeting their specification", "why_tests_cant": "The error of a structure refers to a minimum that is unknown to the test, and the claim holds for all structures and step numbers.", "anchors": ["elphmod/md.py:223-313"]}
{"id": "C192", "title": "Symmetry of relaxed structures and trajectories", "statement": "Let Hamiltonian, force constants, coupling, and constant forces of md.Driver have a symmetry of the crystal. If the unscreened force constants are stable and the temperature is sufficiently high, every structure without forces has this symmetry, however it has been found; conversely, a structure without forces that breaks the symmetry (a charge-density wave) exists below a temperature given by coupling and force constants only. Such structures do exist at low temperature. In simulations of molecular dynamics with the forces returned by the driver, at any temperature, symmetry-equivalent initial positions and velocities lead to symmetry-equivalent trajectories, and a symmetry of initial positions and velocities is never broken, even if the symmetric structure is unstable: to find a charge-density wave, the initial structure must be distorted. Likewise, the steps of a relaxation by steepest descent from symmetry-equivalent structures are symmetry equivalent.", "quantifier": "for all crystals, symmetry operations, meshes, numbers of atoms and orbitals, structures, initial conditions, times, masses respecting the symmetry, and external routines meeting their specification", "why_tests_cant": "The absence of symmetry-breaking structures is a statement about all structures, and trajectories must be compared for all times and initial conditions; rounding errors of a numerical simulation would break the symmetry.", "anchors": ["elphmod/md.py:93-172", "elphmod/md.py:223-313", "elphmod/md.py:882-904"]}
