# Formal model of elphmod: design

The subject is the Python package in `/repo/elphmod`. Nothing there is executed; the
source is read as text and modelled in Lean 4 under `/verif/lean/Verif`.
Properties are listed in `properties.jsonl`, the status of every property in
`MANIFEST.json`, mutation tests of the model in `seeded/LOG.jsonl`.

## Layout

For every topic `X` there are up to three modules:

* `Verif/X/Model.lean`: definitions that mirror Python functions branch by
  branch; each carries a comment with file and line numbers in `/repo`.
* `Verif/X/Lemmas.lean`: helper lemmas (no property statements).
* `Verif/X/Props.lean`: small specifications written independently of the model,
  the property theorems (`C<nn>_...`) and `example`s that show that the hypotheses
  of each theorem are met by a concrete, nontrivial case.

Theorem names start with the property id. A theorem whose name ends in
`_partial` proves less than the property says; the comment above it says what
is missing. A theorem whose name ends in `_violated` proves that the code, as
modelled, does *not* have the property, by a concrete witness.

## Trusted base

* The Lean 4.33.0 kernel and the axioms `propext`, `Classical.choice`,
  `Quot.sound` (through Mathlib). No axioms of our own, no `sorry`, no
  `native_decide`, no `bv_decide`.
* The reading of the Python source. There is no mechanical link between the Python
  text and the Lean definitions.
* Floating-point numbers are modelled as exact real or complex numbers, or as
  elements of an arbitrary (ordered) field. Rounding, overflow and NaN are not
  modelled except where a property is about them (then they are explicit).
* Python integers and NumPy index arithmetic are modelled by `Nat`/`Int`;
  fixed-width wrap-around is modelled only where a property is about it (C59).
* MPI calls are modelled by their documented effect (Bcast, Split, Scatterv,
  Gatherv, Allreduce); the MPI library itself is trusted.
* External numerics (`eigh`, FFT) are parameters with their mathematical
  definition or contract as hypothesis.

## Plan per property

| id | modelled | proof plan |
|---|---|---|
| C01 | `MPI.distribute` | induction over chunks; prefix sums closed form |
| C02 | scatter / local loop / gather as list operations and as a small-step machine with an arbitrary schedule | list lemma; invariant over schedules |
| C03 | `i % size == rank` filters and reduce | finite sums, `Finset.sum_fiberwise` |
| C04 | `MPI.matrix`: `Split` with color and key | explicit ranks; arithmetic of `/` and `%` |
| C05 | `MPI.shm_split` with arbitrary node assignment | counting of predecessors |
| C06 | memory = one cell per node (or process), write, leader broadcast in any order, barrier | invariant over schedules |
| C07 | file state machine incl. partially written file | refinement to "last written value"; crash step; violated for crashes |
| C08 | `StatusBar` class and instance state | invariant over histories |
| C09 | `misc.group` double loop with relabelling | loop invariant: labels = connected components of processed edges |
| C10 | `misc.differential` | algebra on lists |
| C11 | `misc.split` on the nested expression (AST rather than regular expressions) | structural induction |
| C12 | `misc.vector_index`, `Model.t` | list lemmas |
| C13 | `misc.minimum` incl. argument handling | field algebra; violated for API calls |
| C14 | `write_xsf`/`read_xsf` index order and line structure | violated (index order); partial for the fixed direction |
| C15 | `read_cube` header | violated |
| C16 | `to_Wmat`/`read_dat_mat` on lines of tokens | induction over blocks |
| C17, C18 | `supercell`, `to_supercell` on `Int` | adjugate identity, integer division, index = determinant |
| C19, C20 | `images`, `irreducibles` | dihedral group action modulo nk, finite order |
| C21 | `complete` for an arbitrary family of mesh maps | loop invariant |
| C22 | `stack` for one column of points over an ordered field | exchange argument with the mean |
| C23, C24, C25 | `linear_interpolation`, `resize` over an ordered field with floor | case analysis |
| C26, C27 | `squared_distance`, `to_Voronoi`, `wigner_2d`, `wigner` | quadratic-form inequalities; finite sums |
| C28, C29 | `short_range_model`, `k2r`, `q2r`, `Fourier_interpolation` | orthogonality of roots of unity |
| C30, C31, C32 | `reciprocals`, `volume`, `primitives`, `mesh` | field algebra, `Real.sqrt` |
| C33 | `band_order` greedy matching | invariant of the `available` set |
| C34 | `hexDOS` density of one triangle, window, round robin | piecewise-linear integral |
| C35-C37 | occupation functions over the reals | calculus in Mathlib |
| C38 | iteration of `find_Fermi_level` | loop postcondition |
| C39 | `smearing` name table | case analysis over strings; violated for unknown names |
| C40-C44 | real-space models `(R, data)` and their Bloch sums over the complex numbers | finite sums over lists / dictionaries |
| C45, C46 | `asr`, `zasr`, `elph.asr`, `divide_by_mass` | algebra |
| C47 | `elph.Model.g` with its cache as state machine | refinement; violated after `asr` |
| C48-C50 | file formats as lists of lines of tokens / fixed-width fields | round trip; violations by witness |
| C51-C54 | `diagrams` on periodic meshes | finite sums, divided differences |
| C55, C56 | `md.Driver` | algebra |
| C57 | `plot.arrange` | termination measure, list lemmas |
| C58 | built-in models over the reals | trigonometric/complex-exponential algebra |
| C59 | `uint8` table | `BitVec 8`; violated |
| C60 | `polarization` | inner-product algebra |
| C61 | end of `elph.sample` as a machine with an arbitrary schedule | invariant; violated by a schedule |
| C62, C64, C66 | `resize` of integers, shifted `to_Voronoi`, `primitives` with `celldm` | violated by witnesses |
| C63 | `complete_k` | loop invariant, jointly symmetric function |
| C65 | `wigner` | minimum over translations |
| C67, C68 | `map_dispersions`, `unfolding_weights` | permutations; Parseval |
| C69, C70 | `double_delta`, `hexa2F` | geometry of one triangle; piecewise-linear integrals |
| C72 | `el.Model.v` | derivative of a finite sum |
| C73, C78 | `elph.Model.standardize`, `supercell` | finite sums over dictionaries |
| C74 | `sum_rule_correction` | Gram-Schmidt, orthogonal projection |
| C75 | `sgnsqrt` | real algebra |
| C76, C77, C80, C88 | long-range terms of dynamical matrix and coupling | symmetries of Ewald sums |
| C79, C81-C87, C89 | `diagrams`, `md` | finite sums, derivatives |
| C90, C92 | `dispersion`, `dispersion_full` | symmetric meshes, permutations, phases |
| C93 | `susceptibility2`, `phonon_self_energy2` | Mittag-Leffler series, uniform convergence |
| C94, C95 | `eliashberg` | convexity, monotonicity |
| C91 | shared memory in `dispersion` | invariant of an interleaved machine |
| C96, C97 | `sum_force_constants`, `spectral_function` of phonons | finite sums; resolvent, improper integral |
| C98-C102 | `plot.toBZ`, `compline`, `rectify`, `color`, `adjust_pixels` | geometry of the plane; interpolation; violated by witnesses |
| C103-C107 | `path` (incl. tables of special points), `GMKG`, `BZ`, `point_on_path` | induction over segments; quadratic-form inequalities; violated by witnesses |
| C108-C113 | files with wave vectors, quadrupoles, Coulomb interactions, bands, trajectories, force constants | tokens of formatted fields; induction over lines; violated by witnesses |
| C114-C116 | `density`, `density_per_atom`, `find_Fermi_level` with two chemical potentials, `superconductivity` in `md` | spectral projections; monotone searches; convexity of exp; violated by witness |
| C117-C119 | `elph.transform` and band basis in `sample`, `elel.hartree_energy`, `el.read_rhoG_density`, `el.read_wfc` | unitarity; geometry of the dual basis; lists of bytes; violated by witnesses |
| C71 | `dos.isoline` including creation of triangles | barycentric coordinates; relation over all orders of the set; parity of ends; six linear forms for the borders of the zone; violated by witness |
| C120 | `md.electrons`, `md.phonons` | spectral theorem; inverse Fourier transform; bound for neglected elements; violated by witnesses |
| C121, C122, C123 | `misc.read_namelists`, `misc.read_input_data`, readers and writers of input files in `bravais` | replacement passes and scan of the text as functions on lists of characters; induction over entries, namelists and cards; violated by witnesses |
| C124 | first part of `ph.q2r` | transformation of exponential sums under a permutation of bonds; orbits of mesh points from C20 |
| C125 | `ph.Model.to_flfrc`, `ph.Model.__init__` (force constants) | classes of lattice vectors modulo the mesh; weights from C27 |
| C126, C127 | `el.proj_sum`, `el.read_projwfc_out` | names as structures and their unique decomposition; invariant of the loop over a set in any order; violated by a witness |
| C128 | `elph.Model.sample_orig`, `update_short_range` | inverse transforms from C28, cached state from C47; violated by a witness with unit charges |
| C129, C130 | `el.read_pwo`, `read_Fermi_level`, `read_eps_nk_from_qe_pwo`, `eband`, `demet_from_qe_pwo` | output as list of items in the formats of `pw.x`; induction over items with the state of the reader; violated by witnesses |
| C131, C132 | kernels in `ph.Model.generate_long_range`, `occupations.bose_einstein` | limits along rays, bounds for hyperbolic functions; geometric series |
| C133 | `elph.read_xml_files`, `write_xml_files` | structure of files as specification; induction over k points; rounding errors of coordinates; violated for all data |
| C134, C135 | `md.Driver.__call__`, `random_displacements`, `save`, `load` | derivatives from C89, functions of matrices independent of eigenvectors; attributes as optional values; violated by witnesses or for all drivers of a kind |
| C136, C137 | `elph.coupling`, `read_EPW_output`, `read_prtgkk`, `read_L` | files as lists of lines, loops with `next` as iteration with rest; last or first entry counts; aliasing by negative indices |
| C138 | `el.Model.__init__`, `read_wsvecdat` | dictionary as association list, Bloch sums of its entries; symmetric lists as permutations |
| C139-C141 | `el.read_atomic_projections`, `read_atomic_projections_old`, `read_bands_plot`, `read_symmetry_points`, `read_wannier90_eig_file`, `read_decayH`, `read_energy_contributions_scf_out`, `elph.read_patterns` | sections of files as specification, induction over lines; triangle inequality; violated for all inputs of a kind |
| C142 | `models.*.create`, `k2r`, `q2r` off the mesh | aliasing of Fourier sums, Wigner-Seitz selection as partition of equivalent vectors; squared lengths as integer forms, finitely many vectors checked by the kernel; violated for all parameters |
| C143 | `ph.Model.__init__` from dynamical matrices | fold over points with the last one stored, arbitrary content otherwise; transform from C28; violated for all incomplete files |
| C144 | `elel.Model.__init__`, `read_local_Coulomb_tensor`, `read_orbital_Coulomb_interaction` | lines as specification, skipped lines as optional values; sums over periodic mesh; violated for all equivalent lattice vectors |
| C145 | `ph.Model.decay`, `elph.Model.decay_epmate`, `decay_epmatp`, `el.decayH` | lists related element by element to filtered bonds; maximum as attained upper bound |
| C146 | `ph.Model.to_pwi`, `md.Driver.to_pwi` | dictionary as structure; set in any order; inverse matrix from C30; violated for all isotopes |
| C147 | `elph.ph2epw` | file system as function; copies as fold with disjoint sources and distinct targets; frame condition |
| C148 | `bravais.readPOSCAR`, `el.read_pp_density` | relation between files and structures as specification, induction over blocks; violated for all files of a kind |
| C149 | `ph.read_flfrc_xml` | XML tree as inductive type, unique children as specification; maps over index lists |
| C150 | `misc.read_xsf`, `write_xsf` as text, `misc.real_space_grid`, `el.Model.__init__` (Wannier functions) | tokens of formatted fields from C48; pieces of a flat array; triple products; violated for all grids |
| C151 | `ph.interpolate_dynamical_matrices` | transition system with shared files, barrier and broadcast; invariant by program counters for all schedules; violated for all runs |
| C152 | `diagrams.grand_potential`, `first_order`, `phonon_self_energy`, `triangle` | sums over eigenstates independent of the diagonalization; compactness of the unitary group (ultrafilters) for limits at crossings; divided differences |
| C153 | `diagrams` | sums over eigenstates independent of the diagonalization; explicit phases as counterexample |
| C154 | `diagrams`, `el.Model.supercell`, `ph.Model.supercell`, `elph.Model.supercell` | groups of wave vectors with a homomorphism; orthogonality and completeness of phases of cells; Bloch states as one possible diagonalization of the supercell, others by C153 |
| C155 | `md.Driver` | specification of repeated drivers; folding of the displaced Hamiltonian; sums of C154 for arbitrary diagonalizations |
| C156 | `md.Driver.superconductivity` | functions of dynamical matrices intertwined by plane waves; trace over folded modes; normalization of the sparse average |
| C157 | `ph.Model.supercell`, `prepare_long_range`, `generate_long_range`, `D_lr`, `elph.Model.g_lr` | reciprocal vectors of the supercell from matrix inverses; sum over cells projects onto reciprocal lattice vectors of the unit cell; common factors of all branches |
| C158 | `elph.Model.supercell`, `g` | dictionaries of several processes add up to that of one process; exact result of the folding with long-range terms |
| C159 | `plot.plot`, `double_plot`, `linear_interpolation` | pixel centers from rows and columns; barycentric coordinates; closest reciprocal lattice point; corners of hexagons and squares |
| C160 | `plot.colorbar` | rounding bounds; indices and slices of Python; fold over rows |
| C161 | `MPI.info`, `Buffer.get`, `load`, `shared_array`, `SharedArray`, `ph.Model.__init__` | operational semantics of collective operations with arbitrary scheduler; processes follow a common sequence of operations; first pending operation can always be completed; remaining steps decrease in each round |
| C162 | `standardize`, `supercell`, `order_orbitals`, `shift_orbitals`, `order_atoms`, `shift_atoms` in any sequence | Bloch sums over cells block-diagonalize the supercell matrix (orthogonality of phases, transposed supercell lists the folded wave vectors); induction over the calls with the invariant of unique lattice vectors |
| C163 | `elph.Model.g` and `elph.sample` on several processes | asynchronous collective operations with contributions; each process follows a common sequence of operations restricted to its communicators; caches of processes remain valid although they differ |
| C164 | sequences of `order_atoms`, `shift_atoms`, `standardize`, `supercell` with long-range terms | model with explicit list of reciprocal vectors and Gamma-point correction; each step keeps them consistent; eigenvectors carried along |
| C165 | sharing of arrays between mass-spring models | heap of arrays with views and writing in place; refinement of a semantics in which each model is a value |
| C166 | translational invariance from models to simulations | sum rules as sums over atoms of couplings and force constants; composition of `asr`, `supercell` and the driver; witness with two opposite charges in a cubic cell |
| C167 | optimization routines see a function and its derivative | heap of displacement arrays, aliasing of the driver's array; calls as state machine; pure optimization as specification; witnesses for stale electrons and overwritten arrays |
| C168 | screening in two steps | Dyson equation and sums over transitions outside of the subspace as specification; bubbles as matrix products, positive semidefinite matrices |
| C169 | tolerance and history of the chemical potential | states at a given or the exact chemical potential as specification; the search from any initial guess; mean value theorem, monotonic number of electrons |
| C170 | models without matrix elements | expected Bloch matrix after calls as specification; arrays with number of dimensions on the first and other processes; induction over sequences of calls |
| C171 | symmetries of interpolated models | shortest bonds, space-group operations and relations between matrices at rotated wave vectors as specification; models as sums over mesh points, reindexed by images of mesh points |
| C172 | sum-rule corrections and symmetries | operations as permutations of atoms and bonds with a rotation as specification; minimal correction as unique nearest vector in the invariant space of vectors that satisfy the sum rules; counterexamples |
| C173 | splitting of optical modes | limit of the dynamical matrix up to a nonanalytic term as specification, uniform in the tolerance; summands as dipole and quadrupole terms bounded by powers of the wave vector, continuity of all other summands |
| C174 | robustness of energies | eigenvalues of the lower triangle in ascending order as specification; Weyl's inequality from a combination of low states orthogonal to other low states |
| C175 | long-range coupling near the center of the Brillouin zone | limit up to explicit Fröhlich and quadrupole terms as specification, uniform in the tolerance; second-order expansion of exponentials in three, limit of the kernel times the length of the wave vector in two dimensions |
| C176 | symmetry of diagrams | unitary operations that relate Hamiltonians and couplings at different wave vectors as specification, with unrelated diagonalizations; sums over pairs of states as traces of functions of the Hamiltonians |
| C177 | symmetries of data on meshes | length-preserving integer maps and invariance of data as specification; classification of isometries; orbit-stabilizer theorem by bijections between fibers; counterexamples for tolerance, missing data, and other angles |
| C178 | unfolding of band structures | eigenvalues and complete orthonormal eigenvectors as specification; Bloch states as eigenstates of perfect supercells; spectral sums by Parseval's theorem; variance bound for distorted supercells; completeness by orthogonality of characters of the cells |
| C179 | saving and loading tight-binding models | energies in eV as specification; exact result of reading what was written (rounding); idempotence of rounding and sorting; failing lookups in folds |
| C180 | frequency dependence of phonon self-energy | quadratic form of displacement patterns; limits of sums of quotients along filters; sign of imaginary parts after pairing transitions with their reverse by time-reversal symmetry |
| C181 | symmetry of free-energy surfaces | representation by permutation and rotation of displacements; Hamiltonians of displaced structures as operations of C176; uniqueness of the chemical potential; symmetry of the driver from that of its input |
| C182 | bounds of the free energy, relaxation | Gibbs-Bogoliubov inequality (C81) for two structures with different chemical potentials, in which the number of electrons of the first one cancels the change of the chemical potential; electronic forces bounded by matrix elements of the coupling; compactness; telescoping sum of descent steps |
| C183 | rotation sum rule and forces | moments of the force constants; reciprocity makes the moment of the unit cell antisymmetric, the sum rule symmetric in another pair of directions; two molecules as counterexamples |
| C184 | acoustic phonons | min-max principle with the three uniform displacements; phase factors minus one (plus or minus the wave vector, or minus the linear term) bounded by squares of angles |
| C185 | derivatives for any diagonalization | exact difference formula for functions of matrices with divided differences between two eigenbases; compactness of the set of eigenbases and independence of the choice instead of smooth eigenvectors; chemical potential from monotonicity, then quotient |
| C186 | charge-density waves in supercells | plane wave of the unit cell as a pattern of the supercell; its curvature from folding of the Hessian (C155), its linear term vanishes by orthogonality of phases, the Hessian at Gamma is real, so real or imaginary part lowers the free energy (C185) |
| C187 | temperature and doping dependence | energy and temperature of one state below the tangent plane (perspective of a concave function); with fixed particle number, tangents of the free energy; continuity of the chemical potential gives derivatives |
| C188 | free energy and ground state | contribution of each level at most zero and at most its energy, hence below any occupation between zero and one (weak duality); trace in the basis of eigenvectors; maximum of the entropy at the chemical potential |
| C189 | no structural instability at high temperature | mean-value bound of occupation differences; invariance of the Frobenius norm under eigenvectors; shift of the chemical potential as a square; second-order lower bound along lines with derivatives of C185 |
| C190 | molecular dynamics is well defined | Lipschitz constant of the forces from bounds of C182 and C189 on both sides; Picard-Lindelöf with duration independent of the initial value, pieces joined; energy conservation of C185 and lower bound of the free energy |
| C191 | accuracy of relaxed structures | strong convexity from the lower bound of C189, Cauchy-Schwarz inequality, decrease per step of C182; Fréchet derivative from quadratic remainder |
| C192 | symmetry of relaxed structures and trajectories | uniqueness of the relaxed structure (C189) and of trajectories (C190), symmetry of energy and forces (C181) |

## Axioms per theorem

The set of axioms of every theorem in `MANIFEST.json`, as reported by `#print axioms`:

* `Classical.choice`, `Quot.sound`, `propext`: all 969 theorems not listed below.
* `Quot.sound`, `propext` (19 theorems): `Misc.C07_crash_violated`, `Misc.C09_diameter_violated`, `Misc.C13_call_violated`, `Misc.C14_roundtrip_violated`, `Mesh.C21_preserves`, `TB.C42_repeated_violated`, `TB.C44_order_undo`, `Diag.C54_partial`, `Diag.C54_violated`, `Plot.C57_empty`, `MPI.C61_sample_race_violated`, `Binary.C119_density`, `Binary.C119_wave`, `Proj.C126_select`, `ElInit.C138_nk_partial`, `ElInit.C138_nk_violated`, `ElInit.C138_respack_violated`, `MPI.Coll.C161_broken_violated`, `Mesh.C177_names`.
* `propext` (4 theorems): `Misc.C07_get_last_partial`, `Misc.C07_no_fabrication_partial`, `Misc.C08_silent_rank`, `Misc.C15_origin_violated`.

## What is modelled

Functions with at least one cited range of lines in a model definition, with the modules concerned. A percentage below
100 tells which part of the lines of the function (including its documentation) the citations cover. What is
simplified or left out within a cited range is said in the comment of the definition.

* `MPI.py`: `distribute`, `matrix`, `shm_split` (30 %), `shared_array` (82 %), `SharedArray.__array_finalize__` (75 %), `SharedArray.Bcast` (80 %), `Buffer.get`, `Buffer.set`, `load` (72 %), `info` [Verif.ElPh.Parallel, Verif.MPI.Calls, Verif.MPI.Model, Verif.Misc.Model]
* `bravais.py`: `rotate`, `primitives`, `translations`, `reciprocals`, `volume` (20 %), `supercell`, `to_supercell`, `images`, `irreducibles`, `symmetries`, `complete`, `complete_k`, `stack`, `linear_interpolation` (66 %), `resize`, `squared_distance`, `to_Voronoi`, `wigner_2d` (26 %), `read_wigner_file`, `wigner`, `short_range_model`, `Fourier_interpolation`, `path`, `GMKG`, `BZ`, `read_pwi`, `write_pwi`, `read_win`, `write_win`, `write_ph`, `write_q2r`, `read_matdyn`, `write_matdyn`, `read_epw`, `write_epw`, `readPOSCAR`, `point_on_path`, `crystal_to_cartesian`, `cartesian_to_crystal` (48 %), `mesh`, `kpoints` [Verif.Bravais.GMKG, Verif.Bravais.Labels, Verif.Bravais.Model, Verif.Bravais.Path, Verif.Fourier.Check, Verif.Fourier.Model, Verif.Interp.Model, Verif.Interp.Props, Verif.Lattice.Model, Verif.MPI.Calls, Verif.MPI.Model, Verif.Mesh.CompleteK, Verif.Mesh.Model, Verif.Mesh.Props, Verif.Mesh.Symmetries, Verif.Phon.Decay, Verif.Plot.Outline, Verif.Readers.Poscar, Verif.Stack.Model, Verif.Text.Inputs, Verif.Text.Pwi, Verif.Text.PwiRead, Verif.Text.Wigner, Verif.Text.Win, Verif.Voronoi.Model]
* `diagrams.py`: `susceptibility`, `susceptibility2`, `polarization`, `phonon_self_energy`, `phonon_self_energy_fermi_shift`, `phonon_self_energy2` (60 %), `renormalize_coupling_band`, `renormalize_coupling_orbital` (43 %), `Pi_g`, `double_fermi_surface_average`, `grand_potential`, `first_order`, `triangle`, `fan_migdal_self_energy`, `green_kubo_conductivity` [Verif.Diag.Dynamic, Verif.Diag.Matsubara, Verif.Diag.Model, Verif.Diag.Nonadiabatic, Verif.Diag.Screening]
* `dispersion.py`: `dispersion` (42 %), `dispersion_full`, `dispersion_full_nosym` (16 %), `sample` (49 %), `band_order` (91 %), `map_dispersions`, `unfolding_weights` [Verif.Bands.Dispersion, Verif.Bands.Full, Verif.Bands.Model, Verif.Bands.Shared, Verif.MPI.Model]
* `dos.py`: `hexDOS` (34 %), `hexa2F`, `double_delta`, `isoline` [Verif.DOS.A2F, Verif.DOS.DoubleDelta, Verif.DOS.Isoline, Verif.DOS.IsolineMesh, Verif.DOS.Model, Verif.MPI.Model]
* `el.py`: `Model.H` (4 %), `Model.v`, `Model.t` (32 %), `Model.__init__` (90 %), `Model.supercell` (62 %), `Model.unit_cell`, `Model.order_orbitals`, `Model.shift_orbitals`, `Model.standardize`, `Model.clear`, `Model.to_hrdat`, `read_hrdat`, `write_hrdat`, `read_wsvecdat`, `k2r`, `read_bands`, `write_bands`, `read_bands_plot` (32 %), `read_symmetry_points` (24 %), `read_atomic_projections`, `read_atomic_projections_old`, `read_projwfc_out`, `proj_sum`, `read_Fermi_level`, `read_pwo`, `read_wannier90_eig_file` (25 %), `read_eps_nk_from_qe_pwo`, `eband` (46 %), `demet_from_qe_pwo` (61 %), `read_decayH` (40 %), `decayH`, `read_energy_contributions_scf_out` (78 %), `read_pp_density`, `read_rhoG_density` (50 %), `read_wfc` (36 %) [Verif.AtomicProj.Model, Verif.ElEl.Hartree, Verif.ElInit.Model, Verif.ElInit.Save, Verif.ElInit.Wannier, Verif.Fourier.Model, Verif.Misc.Model, Verif.Phon.Decay, Verif.Proj.Out, Verif.Proj.Sum, Verif.Pwo.Eps, Verif.Pwo.Model, Verif.Readers.Model, Verif.Readers.Poscar, Verif.TB.Empty, Verif.TB.Model, Verif.TB.Sequence, Verif.Text.BandFile, Verif.Text.Binary, Verif.Text.Formats, Verif.Text.HrDat]
* `elel.py`: `Model.W` (6 %), `Model.WR` (32 %), `Model.__init__`, `Model.supercell` (63 %), `Model.standardize`, `Model.to_Wmat`, `read_local_Coulomb_tensor`, `read_orbital_Coulomb_interaction`, `q2r`, `read_band_Coulomb_interaction`, `write_band_Coulomb_interaction`, `orbital2band`, `hartree_energy` (41 %) [Verif.ElEl.Hartree, Verif.ElEl.Init, Verif.ElEl.Orbital2Band, Verif.Fourier.Model, Verif.Misc.Model, Verif.TB.Empty, Verif.TB.Model, Verif.Text.Formats, Verif.Text.Small]
* `eliashberg.py`: `Tc`, `McMillan` [Verif.Eliashberg.Model]
* `elph.py`: `Model.g`, `Model.g_lr` (83 %), `Model.gR` (40 %), `Model.__init__`, `Model.divide_degeneracy`, `Model.sample_orig`, `Model.update_short_range`, `Model.supercell`, `Model.standardize`, `Model.asr`, `Model.decay_epmate`, `Model.decay_epmatp`, `Model.clear`, `Model.to_epmatwp` (73 %), `sample` (76 %), `transform`, `q2r`, `coupling`, `read_EPW_output`, `read_prtgkk`, `read_L`, `read_patterns`, `read_xml_files`, `write_xml_files`, `write_data`, `read_data`, `ph2epw` [Verif.Coupling.Model, Verif.ElPh.Clear, Verif.ElPh.Froehlich, Verif.ElPh.Model, Verif.ElPh.Parallel, Verif.ElPh.Ph2epw, Verif.ElPh.Range, Verif.ElPh.SupercellLR, Verif.ElPh.Transform, Verif.Epw.Model, Verif.Fourier.Model, Verif.MD.Save, Verif.MPI.Model, Verif.Misc.Model, Verif.Phon.Decay, Verif.Readers.Model, Verif.Text.Epmatwp, Verif.Text.Formats, Verif.Text.Wigner, Verif.Xml.Model]
* `md.py`: `Driver.__init__`, `Driver.random_displacements`, `Driver.center_mass`, `Driver.find_Fermi_level`, `Driver.diagonalize`, `Driver.free_energy`, `Driver.jacobian`, `Driver.hessian`, `Driver.electrons`, `Driver.phonons`, `Driver.superconductivity`, `Driver.density`, `Driver.density_per_atom`, `Driver.plot` (3 %), `Driver.to_xyz`, `Driver.from_xyz`, `Driver.to_pwi`, `Driver.save`, `Driver.load`, `Driver.__call__` [Verif.MD.Call, Verif.MD.Density, Verif.MD.Ground, Verif.MD.Model, Verif.MD.Models, Verif.MD.Optimize, Verif.MD.Photo, Verif.MD.RepeatInit, Verif.MD.Save, Verif.MD.SparseSupercond, Verif.MD.Supercond, Verif.MD.Tolerance, Verif.Phon.Alias, Verif.Phon.ToPwi, Verif.Text.BandFile]
* `misc.py`: `StatusBar.__init__`, `StatusBar.update`, `group` (30 %), `differential`, `read_cube` (69 %), `read_xsf`, `write_xsf`, `real_space_grid`, `read_namelists`, `read_input_data`, `read_dat_mat`, `split`, `vector_index`, `minimum` (55 %) [Verif.ElInit.Wannier, Verif.ElPh.Model, Verif.Misc.Model, Verif.Misc.Xsf, Verif.Split.Model, Verif.Text.Formats, Verif.Text.Namelist]
* `models/chain.py`: `hamiltonian`, `dynamical_matrix`, `coupling`, `create` (22 %) [Verif.Models.Chain, Verif.Models.Create]
* `models/graphene.py`: `hamiltonian`, `rotate`, `dynamical_matrix`, `coupling`, `coulomb_interaction`, `create` (25 %) [Verif.Models.Create, Verif.Models.Graphene]
* `models/tas2.py`: `R2`, `hopping`, `dR2_dphi`, `derivative`, `hamiltonian`, `R`, `rotate`, `xreflect`, `zreflect`, `dynamical_matrix`, `coupling`, `create` (22 %) [Verif.Models.CreateTaS2, Verif.Models.TaS2]
* `occupations.py`: `bose_einstein`, `fermi_dirac`, `fermi_dirac_delta`, `fermi_dirac_delta_prime`, `fermi_dirac_entropy`, `gauss`, `gauss_delta`, `gauss_delta_prime`, `gauss_entropy`, `marzari_vanderbilt`, `marzari_vanderbilt_delta`, `marzari_vanderbilt_delta_prime`, `marzari_vanderbilt_entropy`, `hermite_polynomials`, `methfessel_paxton_term`, `methfessel_paxton`, `methfessel_paxton_delta`, `methfessel_paxton_delta_prime`, `methfessel_paxton_entropy`, `double_fermi_dirac`, `double_fermi_dirac_delta`, `double_fermi_dirac_delta_prime`, `double_fermi_dirac_entropy`, `two_fermi_dirac`, `two_fermi_dirac_delta`, `two_fermi_dirac_delta_prime`, `two_fermi_dirac_entropy`, `lorentz`, `lorentz_delta`, `lorentz_delta_prime`, `heaviside`, `heaviside_delta`, `heaviside_delta_prime`, `heaviside_entropy`, `fermi_dirac_matsubara`, `fermi_dirac_matsubara_delta`, `fermi_dirac_matsubara_delta_prime`, `smearing`, `find_Fermi_level`, `find_Fermi_level_simple` [Verif.Occ.Model]
* `ph.py`: `Model.D`, `Model.D_lr`, `Model.C`, `Model.__init__` (85 %), `Model.prepare_long_range`, `Model.generate_long_range`, `Model.sample_orig`, `Model.update_short_range`, `Model.sum_force_constants`, `Model.supercell`, `Model.unit_cell`, `Model.order_atoms`, `Model.shift_atoms`, `Model.standardize`, `Model.symmetrize`, `Model.decay`, `Model.clear`, `Model.to_pwi` (95 %), `Model.to_flfrc`, `divide_by_mass`, `read_q`, `write_q`, `fildyn_freq`, `read_flfrc`, `write_flfrc`, `read_flfrc_xml`, `read_quadrupole_fmt`, `write_quadrupole_fmt` (87 %), `asr`, `zasr`, `sum_rule_correction`, `sgnsqrt`, `polarization` (50 %), `q2r` (71 %), `interpolate_dynamical_matrices`, `spectral_function` [Verif.Fourier.Model, Verif.MD.Models, Verif.MPI.Calls, Verif.Misc.Model, Verif.Phon.Acoustic, Verif.Phon.Alias, Verif.Phon.Cost, Verif.Phon.Decay, Verif.Phon.FlfrcXml, Verif.Phon.Init, Verif.Phon.Interpolate, Verif.Phon.Irreducible, Verif.Phon.Model, Verif.Phon.Screened, Verif.Phon.Sequence, Verif.Phon.Spectral, Verif.Phon.Splitting, Verif.Phon.SupercellLR, Verif.Phon.ToFlfrc, Verif.Phon.ToPwi, Verif.TB.Empty, Verif.TB.Model, Verif.TB.Sequence, Verif.Text.BandFile, Verif.Text.Dyn, Verif.Text.Flfrc, Verif.Text.Small]
* `plot.py`: `plot`, `double_plot`, `colorbar`, `arrange`, `toBZ`, `rectify`, `color`, `adjust_pixels`, `compline` [Verif.Plot.Arrange, Verif.Plot.BZ, Verif.Plot.Colorbar, Verif.Plot.Compline, Verif.Plot.Image, Verif.Plot.Plane]

## What is not modelled

Functions of which no line is cited:

* `MPI.py`: `SharedArray.__new__` (251-261), `Buffer.__init__` (283-287), `elphmodenv` (396-416)
* `bravais.py`: `read_ph` (2224-2237), `read_q2r` (2280-2293)
* `el.py`: `Model.symmetrize` (579-582)
* `elph.py`: `Model.sample` (385-392), `Model.symmetrize` (669-672)
* `md.py`: `Driver.update_plot` (718-736)
* `misc.py`: `hello` (179-183), `get_sparse_array` (185-196)
* `ph.py`: `group` (1015-1018)
* `plot.py`: `choose_backend` (14-21)

## Simplifications that hold for several parts

* `Text`: strings are lists of characters. The Python `%` formats used (`%d`, `%Nd`, `%N.Mf`, `%s`) are defined on
  integers and rational numbers; `%f` rounds half to even on the exact value. `str.split`, `int`, `float` are
  defined on ASCII text; exponents are not read. File objects are lists of lines.
* `MPI`: processes run one after the other or interleaved by an arbitrary schedule, depending on the property;
  collective calls have their documented effect; nonblocking communication does not occur in the code.
* `TB`, `ElPh`, `Phon`, `Fourier`: arrays are functions or lists of rows; dictionaries are association lists in
  order of insertion; long-range terms are modelled separately (`Phon/LongRange`, `ElPh/LongRange`).
* `Diag`, `MD`: eigenvalues and eigenvectors are parameters; the contract of `eigh` (unitary eigenvectors) is a
  hypothesis where it is needed. Mesh indices wrap around as in the code (tiled arrays).
* `Occ`: exponential functions are exact; the overflow guards of the code (`abs(x) < xmax`) are modelled.
* `ElEl/Orbital2Band`: `uint8` is `BitVec 8`; NumPy 1 semantics (silent wrap-around).
* `Text/Epmatwp`: the binary file is a list of numbers in row-major order; only the text form of the `.wigner`
  file is modelled; the 32-bit range of the integers in the binary form is not modelled.
* `Models`: `create` methods that only collect the results of the modelled functions are not modelled.
* `Split`: the regular expressions are replaced by functions that find the same matches; default delimiters.

## Further observations about the code

Found while reading; not (or not only) expressed as theorems:

* `MPI.Buffer.set` overwrites the file in place (C07).
* `bravais.complete` returns `None` (in-place operation) although callers may expect the array.
* `bravais.supercell` accepts singular supercells silently.
* `bravais.reciprocals` raises an exception for arrays of integers (division in place).
* `bravais.linear_interpolation`/`resize` truncate for integer types (C62).
* `bravais.to_Voronoi` with large shifts misses points (C64).
* `dos.isoline`, line 352: `(j)` instead of `tuple(j)`, and two separate points instead of one pair.
* `dispersion.dispersion`, line 126: `rotate` assumes that the x components of all atoms come first, unlike the
  rest of the package, where the components of one atom are adjacent.
* `dispersion.dispersion`, line 160: on rank 0 the array `o` in shared memory is replaced by a new local array.
* `elph.read_data`: `text.next` is Python 2 only (C50).
* `elph.Model.supercell`: file access is not followed by a barrier before the result is used by other processes.
* `elph.Model.q2r`, `asr`: cached coupling `gq` is not reset (C47).
* `elph.Model.standardize`: wrong shape in line 627 (C73).
* `elph.Model.__init__` with `ph.lr` takes `divide_mass` from the phonons but stores its own argument (C49).
* `ph.Model.D_lr` is not exactly periodic because of the cutoff; `D0_lr` is not Hermitian in general (C76_hermitian_violated).
* `ph.read_flfrc` looks for `effective charges e-u`, `write_flfrc` writes `Effective charges`: they are lost in files with
  dynamical matrices (C113).
* `ph.write_flfrc` truncates labels to two characters; isotopes with equal labels lose their masses (C113).
* `ph.interpolate_dynamical_matrices` uses an undefined name `MPI`.
* `md.Driver.hessian` with `kT` given and not sparse uses an undefined name `g2dd`.
* `md.Driver.save`: the sparse driver lacks the attribute `node`.
* `misc.minimum`: `if` instead of `elif` (C13); `misc.read_cube`: origin overwritten (C15).
* `plot.arrange` with zero images fails.
* `occupations.two_fermi_dirac` is neither monotonic nor symmetric (C35).
* `plot.toBZ`: the frame uses the lattice vectors only, not their sum and difference (C98); the angle of the default
  interpolation is 60 degrees (reciprocal to the default 120) for all lattices.
* `plot.compline` with `center=False` ignores `y` (C99).
* `plot.color` changes the color map it is given (C101) and divides by zero for constant data.
* `plot.adjust_pixels` fails for images with a single row or if columns coincide (C102).
* `plot.rectify`: the origin of the corner coordinates is the lower left corner.
* `bravais.path` with a single point returns empty lists but the corner 0; with `moveG`, inner Gamma points are missing in
  the Quantum ESPRESSO input (C103).
* `bravais.BZ` for 90 degrees lacks a division by two (C106).
* `bravais.GMKG`: `k = K` without a copy, so `lift_degen` is applied twice if not `straight` (harmless).
* `bravais.point_on_path` returns `None` rather than `False`; two-dimensional points raise an exception as the cross
  product is a scalar (C107).
* `bravais.readPOSCAR` ignores the scale factor and always skips two lines after the numbers of atoms.
* `md.find_Fermi_level` with `two_fermi_dirac` counts electrons with one shared mean chemical potential and loses charge if
  bands overlap (C115).
* `md.superconductivity` documents a parameter `tol` that does not exist, and overwrites `self.d` with couplings in the mode basis.
* `elph.transform` with `squared` but without `U` and `u` multiplies its argument in place (C117).
* `el.read_rhoG_density` and `read_wfc` ignore the flag `gamma_only` (C118) and accept a truncated density (C119).
* `dos.isoline` raises `TypeError` if two corners of a triangle are at the given energy and the third is above: line 352 extends instead of appending a pair (C71).
* `dos.isoline` on meshes with a number of points per dimension that is no multiple of three: the triangles at the corners of the Brillouin zone are cut such that the corner itself is in no triangle, so isolines through it have a gap (C71_corner_violated). For multiples of three, the triangles cover the zone.
* `md.Driver.electrons` with strides that do not divide the number of k points attributes the Hamiltonian to wrong k points (C120).
* `md.Driver.phonons` for a polar crystal counts the long-range terms twice, and does not divide them by masses when the force constants are (C120).
* `misc.read_namelists` takes exclamation marks within strings for comments, and does not terminate for strings that look like its own placeholders, such as `'___1___'` (C121).
* `bravais.read_matdyn` ends the namelist at the first line with a slash, even if the slash is part of a path (C121).
* `bravais.write_pwi` writes lists of parameters (`starting_magnetization`) in the notation of Python, which neither `pw.x` nor `read_pwi` understand (C122).
* `bravais.write_win` writes `mp_grid:` with a colon, which `read_win` ignores: no written file can be read, reading the k points raises `NameError` (C123).
* `el.read_projwfc_out` may return the same name twice, depending on the hash seed of Python, if labels of atomic species contain digits, such as `S` and `S1` (C127).
* `elph.Model.update_short_range` keeps the cached coupling, so that `g` for the wave vector of the previous call ignores new Born charges etc. unless it is a point of the original mesh (C128).
* `el.read_pwo` fails with `UnboundLocalError` for insulators without empty bands, where only the highest occupied level is written (C129).
* `el.read_pwo` returns `None` instead of the energies if a band lies below -100 eV, since its column touches the previous one (C129).
* `elph.read_xml_files` with the default `old=False` fails for every file written by `elph.write_xml_files` (C133).
* `elph.write_xml_files` inserts the axes of bands before those of k points if given the four-dimensional array `elph.read_xml_files` returns for a single band, so that the files cannot be read again (C133).
* Without acoustic sum rule, the forces `md.Driver.__call__` and `jacobian` return are not the derivative of the free energy, from which the collective displacement is removed first (C134).
* `md.Driver.random_displacements` can exceed the amplitude documented as maximum, since the collective component is subtracted afterwards (C134).
* `md.Driver.save` raises `AttributeError` for drivers created from a sparse supercell model, and drivers lose their communicators if it fails (C135).
* `md.Driver.find_Fermi_level` stores the distance of two chemical potentials as attribute of the function `two_fermi_dirac`, which all drivers share and which is not saved (C135).
* `elph.coupling` raises `IndexError` for files that list bands more than the number of selected bands below the first one, and assigns bands below to the highest ones otherwise unless these are listed later (C136).
* `elph.read_EPW_output` returns NaN for q points listed repeatedly or outside 0 to nq - 1 (C137).
* `el.Model.__init__` guesses a wrong mesh for odd numbers of k points, and cannot read *dat.h_mat_r* files of two-dimensional systems without `N` (C138).
* `el.read_atomic_projections` returns the path distance before the k points, contrary to its documentation; `other` is ignored without `squared` (C139).
* `el.read_bands_plot` cannot read a single band at a single point; `el.read_energy_contributions_scf_out` returns strings (C140).
* `elph.read_patterns` drops the imaginary part of patterns; a wrong number of representations is only printed (C141).
* Overflow guards in `occupations.fermi_dirac.entropy` make it differ from the exact value by up to 710 exp(-709) (C37).
* The force constants between different atoms in `models.graphene.dynamical_matrix` have the lattice vectors of the inverse bonds, while those in the model returned by `models.graphene.create` have those of the actual bonds, hence `ph.D(q)` equals `dynamical_matrix(-q)` (C142). Frequencies are not affected.
* `ph.Model` from dynamical matrices does not check that all points of the mesh are listed; the dynamical matrix at missing points is uninitialized memory (C143).
* `elel.Model` with `Wmat` and `nq` overwrites rather than adds matrices for equivalent lattice vectors, so files written by `to_Wmat` for a model with vectors on the boundary of the Wigner-Seitz cell yield another interaction (C144).
* `elel.read_orbital_Coulomb_interaction` takes orbital index 0 for the last orbital, leaves elements not in the file uninitialized and swaps the indices within pairs of orbitals, unlike `read_local_Coulomb_tensor` (C144).
* `ph.Model.standardize` swaps bonds without the lengths used by `decay` afterwards; models of supercells have no lengths at all (C145).
* `ph.Model.to_pwi` writes the mass of the first atom for all atoms of the same name, so isotopes are lost (C146).
* `elph.ph2epw` ends without copying anything if the directory with patterns has been copied by a run that was interrupted; missing potentials go unnoticed (C147).
* `bravais.readPOSCAR` ignores the scaling factor, requires a line for selective dynamics and loses atoms of elements listed more than once (C148).
* `el.read_pp_density` fails unless the number of grid points is a multiple of five and yields a wrong charge for most lattices, e.g., zero for simple cubic ones (C148).
* `ph.read_flfrc_xml` transposes force constants and dynamical matrices but not effective charges (C149); whether this agrees with the files depends on Quantum ESPRESSO, which is not modelled.
* `el.Model.dV` is the spanned volume divided by the number of points, although the grid includes both ends, and functions buffered without normalization are not normalized later (C150).
* `misc.write_xsf` does not separate negative numbers with exponents of three digits from the previous one (C150).
* `ph.interpolate_dynamical_matrices` passes a list to `write_flfrc`, where it is multiplied with a NumPy floating-point number (TypeError). Both behaviours of NumPy are covered by a parameter (C151).
* `ph.interpolate_dynamical_matrices` writes q points in different units to `fildyn0` and to the other files, and removes `fildyn0` with `clean=True` even if it belongs to the user (C151).
* `diagrams.phonon_self_energy` with contact interaction `U != 0` sums the couplings over k points before multiplying left and right vertices, in the basis of the bands. The result depends on the arbitrary phases of the eigenvectors, already for one band and two k points (C153).
* `elph.Model.supercell` with `sparse=True`: every process initializes the diagonal of the sparse matrices with the long-range term before they are summed over all processes. The long-range part is too large by a factor of the number of processes (C158).
* `elph.Model.g` adds the long-range term to the diagonal elements of all orbitals, also for supercells, where the phase of the cell of the orbital would be needed. The long-range coupling of a supercell is only correct for wave vectors for which all phases are one (C158).
* The loops over reciprocal lattice vectors in `ph.Model.prepare_long_range` miss vectors below the cutoff for skewed cells, so that the frequencies of a polar material depend on the choice of primitive vectors and differ between unit cell and supercell (C80, C157).
* `plot.colorbar` with `bottom=0` (as for a color bar that begins at the lower edge) raises an IndexError for every image, since the row index equals the height of the image. If `bottom + height` exceeds one, the rest is drawn at the lower edge of the image because of negative indices. If `left` is negative, so that only the right part should be visible, nothing is drawn at all (C160).
* `MPI.Buffer.get` and `MPI.load` only handle missing files. For a damaged file, the first process raises an exception and all other processes wait forever for a broadcast (C161). The same holds for all readers of the form `if comm.rank == 0: ...` followed by broadcasts.
* If the file with force constants has an unknown `ibrav`, `bravais.primitives` calls `info(..., error=True)` on the first process only. With more than one process, the first process waits in the barrier, the others for a broadcast; the error message is never shown (C161).
* `MPI.SharedArray.Bcast` ends with a barrier of all processes, even if the array has been created for a sub-communicator. Arrays calculated from shared arrays inherit `node` and `images` though their memory is not shared, so that `Bcast` reaches only the first process of each node (C161).
* `ph.Model.order_atoms` and `ph.Model.supercell` set up long-range terms with the default cutoff. If the user has called `prepare_long_range` with another `G_max` or `G_2d`, already the trivial reordering changes the dynamical matrix (C164).
* `ph.Model.unit_cell` returns a model whose positions (and masses, Born charges, ...) are views of those of the supercell. Since `shift_atoms` changes positions in place, calling it for one model also moves the atoms of the other (C165).
* `ph.Model(tau=...)` keeps the array of the user on the first process (`comm.bcast` returns the same object on the root), but has a copy on all other processes. `shift_atoms` thus changes the array of the user on the first process only (C165). Likewise, `apply_zasr` changes the array `zeu` of the user on the first process.
* `ph.Model.prepare_long_range`: for every two-dimensional hexagonal crystal, the supercell of two times two unit cells misses reciprocal lattice vectors below the default cutoff, and so does the primitive cell of every face-centered cubic crystal with a dielectric constant below 28 / 25 (C80_hexagonal_violated, C80_cubic_violated). The missing terms are of order exp(-25).
* `elph.Model.asr` corrects the short-range part only. With long-range terms, there is still coupling to collective displacements (`sum over atoms of g_lr` at `q = 0`, diagonal in the orbitals), even if the Born charges add up to zero, contrary to the documentation ("suppress all coupling of electrons to acoustic phonon modes"). Simulations are not affected because all energies are shifted by the same amount (C166).
* `md.Driver`: after `random_displacements` or `from_xyz`, the results of `jacobian` and `hessian` (and of `density` etc.) still belong to the electrons at the old displacements until `diagonalize` or `free_energy` is called; the springs already use the new ones (C167_stale).
* `md.Driver.free_energy(u)` keeps the array `u` of the user and removes the collective displacement in place. A subsequent `random_displacements` overwrites this array on all processes but the first (`comm.Bcast` fills the existing array, while the first process has created a new one), so that processes may disagree afterwards (C167_processes_violated).
* `standardize`, `shift_orbitals`, `shift_atoms`, `unit_cell` and `elel.Model.supercell` create arrays of shape `(0,)` instead of `(0, 3)` and `(0, size, size)` on the first process if no matrix element is left; then, `H`, `D`, `W` raise an exception on this process only (C170). `supercell` of `el` and `ph` reshapes the arrays.
* `elph.Model.clear` does not reset `Rk0` and the cache. With long-range terms, `g` raises an `IndexError` afterwards, except for the last wave vector, for which it returns zero; `standardize` repairs this (C170).
* `bravais.wigner` searches supercells from -2 to 1 ("intentionally asymmetric"). If positions differ by two unit cells or more, the shortest bond may be found in one direction but not in the other, so that models set up from Hermitian matrices are not Hermitian between the mesh points (C171_hermitian_violated).
* `elph.q2r` maps the lattice vectors of the atom and of the second orbital to shortest ones with respect to the first orbital. The Hermitian conjugate involves their difference, which need not be a shortest one; thus the interpolated coupling is not Hermitian between the mesh points although the samples are (C171_elph_hermitian_violated).
* `ph.sum_rule_correction` warns that it does not respect point symmetries. In fact, it commutes with all symmetry operations under which the list of lattice vectors is closed (C172_correction_partial). With several atoms per unit cell, operations that move atoms by different lattice vectors are broken since also bonds of zero strength are corrected (C172_correction_violated).
* `ph.asr` (argument `apply_asr_simple`), recommended by the above warning, respects all symmetries but may make the dynamical matrix non-Hermitian: the new force constants of an atom with itself need not be a symmetric matrix (C172_simple_hermitian_violated).
* `ph.Model.D` leaves out the nonanalytic term for wave vectors with `KeK <= 1e-10`, i.e., in a region around (not only at) the center of the Brillouin zone, where longitudinal optical modes have the frequencies of transverse ones (C173_tolerance, C173_direction_violated). Outside of it, the splitting is as expected (C173_splitting).
* `elph.Model.g_lr` does not diverge at the center of the Brillouin zone but is continuous there, because of the same tolerance (C175_tolerance, C175_diverges_violated). Outside of the region `KeK <= 1e-10` it is as expected (C175_bulk, C175_plane).
* `bravais.symmetries` (C177): with a tolerance or for incomplete data (NaN), the symmetries found are not closed under combination; `complete` may therefore use a symmetry that no completion of the given data has. Angles other than 60, 90, and 120 degrees are accepted, but the maps tested are not permutations of the mesh points then.
* `dispersion.unfolding_weights` takes the number of unit cells from the ratio of the numbers of bands of `U` and `U0`. If only some bands of the unit cell (or of the supercell) are given, the weights are wrongly normalized (C178_subset_violated).
* A model saved with `el.Model.to_hrdat` under the prefix of the original calculation may not be loaded again: the file *_wsvec.dat* is taken into account although the corresponding correction has already been applied, leading to a `KeyError` for lattice vectors not listed there (C179_wsvec_violated, C179_dimer_violated).
* `diagrams.phonon_self_energy` for an array of frequencies containing zero and nonzero elements divides by zero for states of equal energy (always for q = 0) because the distinction between the static and the dynamic case is made once for all elements (C180_zero_violated).
* C183: the rotation sum rule imposed by `ph.sum_rule_correction` is symmetric in the direction of the first and the position of the second atom (`C[n, k, x1, l, y] * (R[n, x2] + ph.r[l, x2])` minus `x1` and `x2` exchanged) rather than in direction and position of the second atom. For several atoms per unit cell, this is not the sum rule of Born and Huang: forces upon rotation may remain, and force constants without such forces may be changed.

## Properties that do not hold as stated

For each of these there is a theorem ending in `_violated` (a concrete witness) or a theorem ending in `_partial`.

* C07 (Buffer returns the last completely written object; crashes are not masked): holds without crashes; violated for every crash point inside set(): old object lost and get() raises
* C09 (group() partitions points into connected neighbourhoods): partition and linkage proved; the stronger documented reading (eps bounds the diameter of a group) is disproved
* C11 (split() implements the distributive law): proved for expressions without the character '<' and without line breaks (default delimiters); C11_violated: the internal placeholder can also appear in the input, split('<0>') does not terminate
* C13 (Extremum of a parabola through three points): formula correct; as a Python call it always ends the program or ignores its arguments (if instead of elif in line 778)
* C14 (XSF files: reading what was written returns the same grid): violated: write_xsf writes the last index fastest, read_xsf expects the first index fastest
* C15 (Cube files: the origin of the grid is returned): violated: r0 is overwritten with uninitialised memory before the broadcast
* C16 (RESPACK-format Coulomb matrices survive a write/read round trip): proved when columns are separated (fewer than 1000 orbitals, elements that fit into the fields), with elements rounded to ten decimals; C16_violated: an element of -10^8 merges with the previous column and the file cannot be read
* C29 (Fourier interpolation is exact at mesh points): exact if no coefficient falls below the threshold 1e-6, error bound N^2 1e-6 otherwise; exactness is violated for small data; scalar data
* C34 (Triangular-lattice DOS is nonnegative and normalised): nonnegative, support, window, process count proved in general; normalization and mean energy for meshes without flat triangles; violated for flat bands
* C35 (Occupation functions: complement, range and monotonicity): Gauss, Lorentz, Heaviside, Methfessel-Paxton (orders up to 50), Marzari-Vanderbilt, Matsubara without restriction; Fermi-Dirac complement only where the overflow guard does not act (error below exp(-709) proved); two_fermi_dirac is neither monotonic nor symmetric at zero
* C36 (delta is minus the derivative of the occupation, delta_prime the derivative of delta): all smearings; Fermi-Dirac and superpositions where the overflow guards do not act (violated beyond by tiny amounts); Methfessel-Paxton up to order 49 (StopIteration beyond)
* C37 (Generalised entropy is consistent with the occupation): all smearings with an entropy; Fermi-Dirac and superpositions exactly where the overflow guards do not act. Beyond that, C37_guard_violated, but the error is at most 710 exp(-709) for all arguments (C37_guard_bound, C37_exact).
* C39 (Smearing names select the documented function): violated: unknown names yield None
* C41 (standardize() preserves the Bloch matrix and yields sorted unique lattice vectors): el, ph, elel: Bloch matrix, order, lattice vectors and values proved; a second application changes the model if matrices cancel (violated), a third never does; elph see C73
* C42 (Supercell models are the folded unit-cell models): el, ph, elel for unique lattice vectors, any nonsingular supercell: blocks, Bloch sums, eigenstates and the complete spectrum with multiplicities (C42_spectrum); violated for repeated lattice vectors, where the later matrix wins
* C43 (unit_cell() undoes supercell()): violated if the first cell listed by bravais.supercell is not the origin (phase factor proved in general) and, for ph, for left-handed supercells (primitive vectors reversed)
* C47 (Cached coupling always reflects the current model): proved for histories of g, standardize, symmetrize; asr (and q2r) do not reset the cache, a counterexample is proved (C47_asr_violated)
* C48 (Wannier90 hr.dat files survive a write/read round trip): proved when columns are separated, with elements rounded to six decimals and optional division by degeneracies; C48_violated: an element of -1000 merges with the previous column and the file cannot be read
* C49 (EPW coupling files survive a write/read round trip): proved when divide_mass of phonons with long-range terms agrees with that of the coupling (text .wigner format, binary format not modelled); C49_violated: otherwise the coupling is divided by the square root of the mass twice
* C50 (Generic array files can be read back): proved for Python 2 (next method of files); C50_violated: with Python 3, read_data fails on every file because text.next does not exist
* C52 (Static phonon self-energy is Hermitian and never hardens phonons): Hermitian for G = g with any window/contact interaction, and for symmetrized G != g without contact interaction; with both it is not Hermitian (C52_contact_violated). Negative semidefiniteness without contact interaction. C52_value/C52_eps identify the Brillouin-zone sum, C52_inversion relates q and -q.
* C54 (Orbital-basis renormalisation works for full four-index interactions): density-density interactions; for four-index interactions an exception is always raised (C54_violated)
* C59 (Band-Coulomb index table holds every mesh index): proved for at most 256 points per dimension and q mesh contained in k mesh; C59_violated: with 257 points the last index is confused with the first one (NumPy 1) or an OverflowError is raised (NumPy 2)
* C61 (Sampled coupling is complete on return with shared memory): violated by a schedule for processes that are not first in their column; holds for the others
* C62 (Resized integer arrays contain the interpolated values): violated: an integer result array truncates the interpolated values
* C64 (Shifted Voronoi cells): proved for shifts below a third of the mesh; violated for large shifts
* C66 (Calculating lattice vectors does not change the input): violated for celldm with bohr=False: the caller's list is modified in place; holds otherwise
* C69 (Double-delta integrals find every isoline crossing once): characterization per triangle and independence of the process count proved; independence of the origin is violated: crossings on the boundary of the mesh are counted once per periodic image
* C70 (Eliashberg spectral function integrates to the mean coupling): integral proved for meshes without flat triangles; violated for flat bands, where the result is infinite at one energy and zero otherwise
* C76 (Symmetries of long-range part of dynamical matrix): C76_hermitian_violated: with neutral charges that are not multiples of one tensor, the self term D0_lr, and thus the long-range part at all q points, is not Hermitian. It is for charges proportional to one tensor (e.g., two atoms) without quadrupoles (C76_hermitian); in general only the q-dependent part is (C76_hermitian_partial).
* C73 (Standardization does not change the coupling): for eps = 0 and if no exception is raised; C73_defined gives a sufficient condition and C73_symmetrize_violated an input for which an array of wrong shape is allocated (elph.py line 627)
* C80 (Ewald sum contains all reciprocal lattice vectors below the cutoff): Only vectors below the cutoff are included (C80_sound). None is missed for orthogonal primitive vectors (C80_complete_partial), for hexagonal unit cells with default parameters (C80_hexagonal), and for skewed cells in general if dielectric constants are large enough (C80_criterion, C80_screened), i.e., 4 / 3 for hexagonal cells (C80_hexagonal_screened) and 3 / 2 for primitive cells of face-centered or body-centered cubic lattices (C80_cubic_screened). Vectors are missed for skewed cells (C80_complete_violated), in particular for all two-dimensional hexagonal crystals in supercells of two times two unit cells (C80_hexagonal_violated), and for all face-centered cubic crystals with dielectric constants below 28 / 25 (C80_cubic_violated).
* C91 (Results of dispersion are visible on all processes): proved for eigenvalues and eigenvectors, and for the band order without shared memory; C91_violated: with shared_memory=True the name of the shared array is rebound on rank 0, other processes on the same node find uninitialized memory
* C92 (Eigenvalues and eigenvectors at each k point): proved except rotate=True; C92_rotate_violated: the rotation assumes x components of all atoms first, while ph.Model orders components by atom, so that displacements of different atoms are mixed
* C93 (Lindhard bubble from Matsubara Green's functions): the limit is proved for the real part and for the self-energy; C93_violated: susceptibility2 does not discard the imaginary part, the result for a flat band away from the Fermi level is never real
* C98 (toBZ shows exactly the first Brillouin zone, each point once): The frame contains the whole zone for hexagonal lattices in any orientation and for the square lattice with angle0 = 0. For the square lattice with angle0 = 45 the corners are cut off (C98_frame_violated). return_k and the broadcast switch are not modelled.
* C101 (color maps data linearly and can be used repeatedly): Violated for a second use with another range: strings in the color map are replaced by numbers in place (C101_violated). Holds for the same range or without strings (C101_again_partial).
* C102 (adjust_pixels moves given columns to given distances): Requires that neighbouring columns are more than one new pixel apart and that there is more than one row; if two of them fall into the same new column, the function fails (C102_violated).
* C103 (Paths through the Brillouin zone connect the given points): The Quantum ESPRESSO input loses an inner Gamma point that has been moved (C103_qe_violated). C103_moveG requires that no two successive points are Gamma.
* C104 (Special points lie on the boundary of the Brillouin zone): C104_boundary covers ibrav = 1, 2, 3, -3, 4, 6, 8; C104_generated the points of -3, -9, 7 derived from others. For the monoclinic lattice with unique axis b, the crystal coordinates of unique axis c are used without swapping axes (C104_monoclinic_violated).
* C106 (BZ returns the outline of the Brillouin zone): Holds for 60 and 120 degrees (C106_outline_partial). For 90 degrees the polygon is larger by a factor of two (C106_square_violated).
* C107 (point_on_path accepts the points between two points): Holds if A and B differ but have the same third component (C107_partial). In general violated: the length is calculated from two components only, and for A = B any point is accepted (C107_violated).
* C108 (Lists of wave vectors are read as they were written): Holds for meshes below 1000 and second components of at most 9 (C108_partial); otherwise columns touch and the file is misread or unreadable (C108_violated).
* C113 (Force-constant files are read as they were written): Force constants: C113_ifc_partial for labels of at most two characters that determine the mass, otherwise C113_labels_violated, C113_isotopes_violated. Dynamical matrices: C113_dyn_partial if columns do not touch; effective charges are never read again (C113_dyn_violated).
* C115 (Two chemical potentials conserve the number of electrons): Holds if the mean chemical potential separates the n / 2 lower from the upper bands (C115_partial); both searches succeed whenever the numbers are possible (C115_terminates). Otherwise the number of electrons is not conserved (C115_violated).
* C117 (Coupling in band basis keeps its strength and momentum): Everything but the last statement. With squared but neither U nor u, transform overwrites its argument (C117_input_violated); C117_input_partial covers all other cases.
* C118 (Hartree energy is the electrostatic energy of the density): Right-handed cells, exact arithmetic. Not for files of Gamma-point calculations, which contain half of the reciprocal vectors (C118_gamma_violated).
* C119 (Binary files with densities and wave functions are read as they were written): Complete files only (C119_density, C119_wave). A truncated density is accepted without any message (C119_truncated_violated).
* C71 (Isolines consist of exactly the points at the energy): Everything for given triangles unless two corners are at the given energy and the third is above, in which case a TypeError is raised instead of drawing the line between the two corners (C71_exception, C71_segment_violated). Points drawn are always in the Brillouin zone and at the given energy (C71_inside). All such points are drawn if the number of mesh points per dimension is a multiple of three and the energy is not that of a mesh point or a point halfway between mesh points (C71_zone_partial); otherwise the corners of the zone are never reached (C71_corner_violated).
* C120 (Models set up for a displaced structure reproduce Hamiltonian and Hessian): Electrons: strides that divide the number of k points; otherwise data is attributed to wrong k points (C120_stride_violated). Phonons: without long-range terms, which would be counted twice (C120_long_range_violated), and without further keyword arguments. Dense matrices, exact arithmetic, divide_ndegen=True.
* C121 (Input parameters of ph.x, q2r.x, matdyn.x and epw.x survive writing and reading): Strings without quotation marks, exclamation marks, backslashes, control characters and triple underscores; for matdyn.x also without slashes (C121_slash_violated: the reader of q points takes a slash within a string for the end of the namelist; C121_comment_violated: exclamation marks in strings start comments; C121_placeholder_violated: infinite loop for text such as ___1___). Floating-point numbers as rational numbers, with the exactness of repr as hypothesis. Numbered parameters of epw.x are nonempty lists of values which Python does not take for false.
* C122 (Input files of pw.x are read as they have been written): Strings as in C121. Single values for all parameters but celldm: lists such as starting_magnetization are read as strings with brackets (C122_magnetization_violated). Zeros in celldm are read as None (C122_zero_violated). Masses are read as far as their format with %.12g is exact (hypothesis). Units in lower case without braces, positions for given space groups without spaces.
* C123 (Input files of Wannier90 are read as they have been written): The claim fails for every structure: the mesh is written with a colon, so that reading the k points raises NameError (C123_grid_violated). Proved for the file with this colon replaced by an equality sign: everything is read back, except that empty projections and paths are absent. Strings are trimmed and contain neither newlines nor the words which end a block.
* C127 (Names of orbitals from projwfc.x are unique and number the atoms): Proved for labels of atomic species which are symbols of elements (a capital letter and optionally a small letter). C127_violated: for the labels S, S, and S1, which are valid in Quantum ESPRESSO, the names depend on the order of the set, and for one of the orders two names are the same. The format of the lines is the one of projwfc.x up to 9999 states and 999 atoms.
* C128 (Updating the short-range part keeps the electron-phonon coupling on the original meshes): C128_mesh: coupling on the meshes, without restrictions. C128_new_partial: other points, if they differ from the wave vector in the cache. C128_cache_violated: update_short_range keeps the cache, so for the cached wave vector the coupling for the old parameters is returned. Exact arithmetic, r given (Wigner-Seitz cells from q2r).
* C129 (Energies and Fermi level from output of pw.x): C129_partial, C129_none, C129_level: general outputs. C129_insulator_violated: if only the highest occupied level is written, read_pwo fails with UnboundLocalError. C129_deep_violated: for energies below -100 eV the columns touch, the conversion fails and energies are silently reported as None. Files as lists of lines, decimal numbers as rational numbers.
* C133 (Electron-phonon coupling in XML files): C133_read: reading holds for both values of old, files given by their structure. C133_partial: what is written is read again with old=True (meshes up to 10^6 x 10^6, lattice vectors of moderate size reciprocal up to 1e-9). It fails with the default old=False for all data (C133_default_violated), and for the array as returned for a single band, whose k axes are mistaken for bands, for all meshes with more than one point (C133_squeeze_violated). Names of files and values beyond rational numbers not modelled.
* C134 (Energy and forces for i-PI are consistent): C134_partial, C134_conserved, C134_total require acoustic sum rules (force constants, coupling); the first two also electronic states that can be chosen as differentiable functions along the path, which is not needed for smearing with a positive, continuous delta function (C185_call, C185_conserved); C134_stateless holds in general. Without acoustic sum rule, the forces are not minus the derivative of the energy (C134_violated). Random displacements have no collective component and are bounded by twice the amplitude given (C134_random), but can exceed the amplitude itself (C134_random_violated).
* C135 (Saved drivers can be restored and drivers are independent): C135_partial: holds for dense models and for drivers initialized with the option supercell. Drivers for sparse supercell models can never be saved (C135_sparse_violated); a failed attempt removes the communicators (C135_failure_violated); with photoexcitation, the distance of chemical potentials is an attribute of the occupation function, which is neither saved (C135_photo_violated) nor separate for each driver (C135_independent_violated). pickle is external.
* C136 (Coupling from text files is assigned to the right matrix elements): C136_partial, C136_complete: holds if no band below the selected range is listed, or if at most as many bands as selected are below and the lines are in the usual order and complete. A file with a band further below cannot be read (C136_offset_violated, IndexError); a band just below the selected range appears as highest selected band unless overwritten later (C136_alias_violated). complete_k is not included here (see C63).
* C137 (Coupling, frequencies and range separation from EPW output): C137_partial, C137_prtgkk, C137_L. q points listed more than once are NaN except for the first time (C137_duplicate_violated), and so are q points given as equivalent points outside 0 to nq - 1 (C137_range_violated), both for all outputs.
* C138 (Tight-binding models from Wannier90 and RESPACK data): C138_distances, C138_mesh, C138_hermitian, C138_respack. The guessed shape of the k mesh is right for even numbers only (C138_nk_partial) and wrong for all odd numbers (C138_nk_violated; documented as guess). With the default mesh, RESPACK data for two-dimensional systems cannot be read (C138_respack_violated). Wannier functions (read_xsf) are not modelled.
* C140 (Small readers of band structures): C140_points, C140_eig, C140_decay, C140_energies, and C140_bands except for a single band at a single point, which can never be read (C140_bands_violated).
* C141 (Displacement patterns from ph.x): C141_partial for real patterns. The imaginary part is always dropped without notice (C141_complex_violated); if the number of representations is too small, the upper left part is returned (C141_number_violated; only a message is printed).
* C142 (Localized models represent sampled short-range functions exactly): C142_k2r, C142_elel, C142_ph, C142_elph in general; C142_chain, C142_graphene_el, C142_graphene_elel, C142_graphene_elph, C142_tas2_el, C142_tas2_ph, C142_tas2_elph for the created models. The dynamical matrix of the created graphene model is that of the model function at the opposite wave vector (C142_graphene_ph_partial), which is not the same (C142_graphene_ph_violated for all spring constants with nonzero out-of-plane component). Without threshold (see C41_eps for its effect).
* C143 (Phonon models from dynamical matrices reproduce them): C143_mesh, C143_long_range, C143_missing; C143_incomplete_violated: for each set of files that lacks a point of the mesh and its opposite, any real matrix may result there, without an error. Files as read (see C113); no sum rules.
* C144 (Coulomb interactions from files): C144_orbital, C144_density, C144_local, C144_unset, C144_init, C144_bare, C144_wmat_direct; C144_wmat_partial with a mesh for inequivalent lattice vectors; C144_wmat_violated: of matrices for equivalent lattice vectors, which occur in files written by to_Wmat, only the last one is used; C144_zero_violated: orbital index zero is taken for the last orbital.
* C145 (Decay of force constants, coupling and hopping with distance): C145_ph, C145_epmate, C145_epmatp, C145_decayH; C145_standardize_violated: lengths are not updated by standardize. Norms are of matrices as stored (divided by masses if requested).
* C146 (PWscf input files have the structure of the model): C146_species, C146_set, C146_structure, C146_md; C146_mass_partial for atoms of the same name with the same mass; C146_mass_violated: for isotopes with the same name, the mass of the first is written for all. Text of the file: C122.
* C148 (Structures from VASP and densities from pp.x): C148_poscar_partial for scaling factor one, selective dynamics and distinct names; C148_poscar_scale_violated: the scaling factor is ignored; C148_poscar_direct_violated: files without selective dynamics are not read; C148_poscar_repeat_violated: atoms of repeated elements are lost; C148_density_partial for hexagonal, tetragonal and face-centered cubic lattices and a multiple of five points; C148_density_rows_violated: other numbers of points are not read; C148_density_cubic_violated: the charge is always zero for simple cubic lattices; C148_density_orthorhombic_violated: b/a is ignored.
* C150 (Wannier functions and real-space grids from XSF files): C150_header, C150_grid, C150_order, C150_missing, C150_buffer. C150_numbers_partial: exponents with at most two digits; C150_exponent_violated: negative numbers with larger exponents make files unreadable. C150_voxel_violated: dV (voxel volume belonging to r) is smaller than the volume between neighboring points of r for every grid. C150_buffer_violated: functions buffered without normalization are not normalized on request.
* C151 (Interpolation of dynamical matrices with external programs is safe for any order of processes): Processes: C151_result, C151_files, C151_progress if the list of q points in line 2070 can be multiplied with a floating-point number; NumPy raises a TypeError instead, so that the function never returns (C151_list_violated; parameter of the model). Contents: C151_q, C151_mass, C151_gamma. Violated: clean removes a fildyn0 provided by the user (C151_clean_violated), and the q points in fildyn0 are in 1/bohr instead of 2 pi / alat (C151_unit_violated). External programs are arbitrary functions.
* C153 (Results do not depend on the choice of eigenvectors): Proved without the contact interaction (U = 0 in phonon_self_energy). With U, the vertices are summed before multiplication, whereby the result depends on the phases already for one band and two k points (C153_contact_violated).
* C157 (Long-range terms are the same in supercells): Proved if no reciprocal lattice vector below the cutoff is missed for unit cell and supercell, in particular for multiples of primitive vectors if these are orthogonal (C157_orthogonal) or the dielectric constant is large enough (C157_screened, e.g., hexagonal and cubic lattices, see C80). C157_violated: for skewed cells, vectors are missed (C80) and already a change of the primitive vectors changes the dynamical matrix.
* C158 (Supercell coupling with any number of processes and with long-range terms): Proved without long-range terms for any number of processes (C158_processes, C158_sparse). C158_sparse_violated: with sparse=True and P processes, the long-range part is contained P times. C158_violated: with sparse=False, the long-range part lacks the phase of the cell of the orbital, so that the folding is correct if and only if this phase is one (or there is no long-range coupling).
* C160 (Color bars do not spoil the image): Proved for rectangles at least one half pixel above the lower edge, higher than one pixel and not exceeding the upper edge. C160_bottom_violated: for bottom=0, an IndexError is raised for all images. C160_top_violated: rectangles exceeding the upper edge continue at the lower edge. C160_left_violated: rectangles exceeding the left edge are not drawn at all.
* C161 (Calls made by all processes never block and give all processes the same data): Proved for readable and missing files, from a general theorem: processes that agree on the sequence of collective operations never block. C161_broken_violated: for damaged files, all processes but the first wait forever. C161_lattice_violated: force constants with unknown ibrav block all processes without error message. C161_sub_violated: SharedArray.Bcast on sub-communicators never returns. C161_derived_violated: Bcast of arrays calculated from shared arrays does not change the data on most processes.
* C164 (Sequences of changes of the cell with long-range terms): C164_attributes, C164_spectrum, C164_modes, C164_orthogonal, C164_screened: proved for the default cutoff; for skew cells, assuming that no reciprocal lattice vector below the cutoff is missed, which holds for large enough dielectric constants (see C80). C164_cutoff_violated: order_atoms (and supercell) call prepare_long_range() with default arguments, so that another cutoff is lost and the dynamical matrix changes. Exact arithmetic. The truncated long-range terms are not exactly periodic in the wave vector, so that for supercells the modes are considered at the folded wave vector without reduction.
* C165 (Mass-spring models are independent of each other): C165_independent, C165_others: proved for all programs that do not move atoms of a model whose positions are shared (after unit_cell, copy.copy, or Model(tau=...)) and have not been renewed by order_atoms. C165_unit_violated: unit_cell returns views of r, and shift_atoms works in place, so that the atoms of the supercell are moved, too. C165_ranks_violated: positions passed to Model(tau=...) are changed on the first process only. The values computed by the methods are arbitrary functions; only sharing and writing in place are modelled. comm.bcast is assumed to return the same object on the root.
* C166 (Translational invariance from models to simulations): C166_simulation and C166_models: invariance of the simulation for all models whose sum rules have been applied, even with long-range coupling, which shifts all energies at most. C166_supercell and C166_springs: sum rules carry over to supercells. C166_hermitian, C166_idempotent: asr preserves Hermiticity and does not change couplings that fulfill the sum rule. C166_long_range: coupling after asr with long-range terms. C166_long_range_violated: contrary to the documentation, asr does not suppress all coupling to collective displacements if there are long-range terms, even if Born charges add up to zero. Exact arithmetic. C166_gradient: the forces returned by the simulation are minus the derivative of the returned energy for all models with sum rules.
* C167 (Optimization routines see a function and its derivative): C167_copies and C167_inplace: every optimization routine which calls free_energy before jacobian obtains exactly the results for a pure function, for all strategies and histories; C167_gradient: the forces are its derivative if sum rules have been applied; C167_free_energy, C167_query and C167_params: energies, forces and force constants after arbitrary harmless calls; C167_processes: the same results on all processes if no arrays are shared. Not true in general: C167_stale and C167_stale_violated (after random_displacements or from_xyz, jacobian combines the springs of the new with the electrons of the old displacements until diagonalize or free_energy is called), C167_processes_violated (an array handed over to free_energy is overwritten by random_displacements on all but the first process). The chemical potential is taken as a function of the energies, independent of the initial guess; dense matrices; Hessian at q = 0.
* C170 (Models without matrix elements can be used): C170_sequence_partial (all sequences of calls if the Bloch matrix does not vanish), C170_clear, C170_supercell, C170_coupling_partial, C170_standardize_coupling hold. Violated: standardize and shift of vanishing models, unit_cell, and elel.Model.supercell leave one-dimensional arrays on the first process only (C170_standardize_violated, C170_shift_violated, C170_unit_cell_violated, C170_elel_supercell_violated), which no sequence of the methods repairs (C170_stuck_violated); threshold for empty models (C170_threshold_violated); elph.Model.g with long-range terms fails after clear (C170_coupling_violated)
* C171 (Interpolated models inherit the symmetries of the samples): Time reversal is always inherited (C171_k2r_time_reversal, C171_elel_time_reversal, C171_ph_time_reversal, C171_elph_time_reversal). Hermiticity (C171_k2r_hermitian_partial, C171_elel_hermitian_partial, C171_ph_hermitian_partial) and space-group operations (C171_k2r_space_group_partial, C171_elel_space_group_partial, C171_ph_space_group_partial, C171_elph_space_group_partial) are inherited if the images of shortest bonds are within the range searched by wigner. This range is asymmetric, so that Hermiticity is lost for orbitals two unit cells apart (C171_hermitian_violated). Hermiticity of the electron-phonon coupling is not inherited even for a single orbital and atom (C171_elph_hermitian_violated)
* C172 (Sum-rule corrections respect the symmetries of the crystal): C172_simple: the simple correction commutes with all operations. C172_correction_partial, C172_invariant_partial: the minimal correction commutes with all operations under which the list of lattice vectors is closed, for exact arithmetic and a threshold that removes redundant constraints only. Otherwise, it breaks symmetries as announced by the warning in the code: C172_correction_violated. The simple correction preserves the independence of the order of atoms if the force constants between an atom and all others sum to a symmetric matrix (C172_simple_reciprocal_partial), but not always: C172_simple_hermitian_violated. For the minimal correction, see C74_reciprocal
* C173 (Longitudinal optical modes are split from transverse ones in bulk but not in two-dimensional polar crystals): C173_splitting (how close is independent of the tolerance), C173_direction, C173_raise, C173_acoustic, and C173_plane. With the default tolerance, there is a region around the center in which the nonanalytic term is left out and dynamical matrices are continuous (C173_tolerance); thus the limit at the center itself is not the expected one (C173_direction_violated). Assumes that no nonzero reciprocal lattice vector is as short as the tolerance. In two dimensions, assumes a nonnegative polarizability and no pole of the out-of-plane response at reciprocal lattice vectors
* C175 (Long-range coupling near the center of the Brillouin zone is that to dipoles and quadrupoles): C175_bulk, C175_plane, C175_diverges, C175_jump, C175_tolerance. For the default tolerance of generate_long_range, which cannot be changed by the user of g_lr, the coupling is continuous at the center of the Brillouin zone and does not diverge (C175_diverges_violated): the Froehlich term is left out if K.eps.K <= 1e-10, cf. C173. In two dimensions, the polarizability is assumed not to be negative
* C177 (Symmetries found on a mesh are those of the data and form a group): C177_found, C177_sound, C177_names, C177_permutation, C177_compose, C177_inverse, C177_group, C177_unity, C177_multiplicity. With tolerance, results do not form a group (C177_tolerance_violated), only within the sum of tolerances (C177_compose). For incomplete data, as in complete, a symmetry can be found and used that no completion of the data has (C177_missing_violated). For other angles, which can be passed, the maps tested are not even permutations (C177_angle_violated). Cartesian arithmetic with exact numbers, see C21_cartesian
* C178 (Unfolding recovers the band structure of the unit cell): Proved for electrons and phonons in the perfect supercell, with a bound for distorted ones, and the completeness of weights. C178_subset_violated: if only some bands of the unit cell are given, weights are wrongly normalized, since the number of cells is taken from the ratio of the numbers of bands.
* C179 (Saving and loading a tight-binding model): C179_restored and C179_stable for files without a *_wsvec.dat file. C179_wsvec_violated: such a file with the same prefix is taken into account again, where loading fails with a KeyError for all models with lattice vectors not listed there; C179_dimer_violated gives a model that has been set up from such files and cannot be loaded after saving it with the same prefix.
* C180 (Frequency dependence of the phonon self-energy): Limits, causality, monotonicity and damping proved (exact arithmetic, no contact interaction, one coupling on both sides). C180_zero_violated: zero as an element of an array of frequencies with a nonzero element is not treated as the frequency zero alone; eps has no effect and the contributions within a band are undefined (0/0) at q = 0.
* C183 (Rotation sum rule and forces upon rotation): Violated for two or more bonds sharing an atom (C183_invariant_violated, C183_force_violated). The positive theorems hold without restriction; those for corrected force constants are for eps = 0.
