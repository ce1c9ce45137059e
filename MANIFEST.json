{
 "claims": [
  {
   "property": "C01",
   "status": "proved",
   "theorems": [
    "Verif.MPI.C01_distribute"
   ],
   "note": "all sizes and chunk counts; zero chunks raise an error"
  },
  {
   "property": "C02",
   "status": "proved",
   "theorems": [
    "Verif.MPI.C02_parMap",
    "Verif.MPI.C02_bounds_ranges",
    "Verif.MPI.C02_any_schedule",
    "Verif.MPI.C02_progress"
   ],
   "note": "result for every process count, every complete schedule, plus progress; MPI collectives by documented effect"
  },
  {
   "property": "C03",
   "status": "proved",
   "theorems": [
    "Verif.MPI.C03_sum",
    "Verif.MPI.C03_owner",
    "Verif.MPI.C03_count"
   ],
   "note": "enumerate, pre-incremented counter and strided-slice variants"
  },
  {
   "property": "C04",
   "status": "proved",
   "theorems": [
    "Verif.MPI.C04_layout",
    "Verif.MPI.C04_owner"
   ],
   "note": "all communicator sizes and numbers of q points"
  },
  {
   "property": "C05",
   "status": "proved",
   "theorems": [
    "Verif.MPI.C05_shm_split",
    "Verif.MPI.C05_membership"
   ],
   "note": "arbitrary assignment of processes to nodes, with and without shared memory"
  },
  {
   "property": "C06",
   "status": "proved",
   "theorems": [
    "Verif.MPI.C06_broadcast",
    "Verif.MPI.C06_no_deadlock"
   ],
   "note": "small-step protocol, every schedule: safety and absence of deadlock"
  },
  {
   "property": "C07",
   "status": "partial",
   "theorems": [
    "Verif.Misc.C07_get_last_partial",
    "Verif.Misc.C07_no_fabrication_partial",
    "Verif.Misc.C07_crash_violated"
   ],
   "note": "holds without crashes; violated for every crash point inside set(): old object lost and get() raises"
  },
  {
   "property": "C08",
   "status": "proved",
   "theorems": [
    "Verif.Misc.C08_output",
    "Verif.Misc.C08_complete",
    "Verif.Misc.C08_silent_rank"
   ],
   "note": "every history of constructor and update calls"
  },
  {
   "property": "C09",
   "status": "partial",
   "theorems": [
    "Verif.Misc.C09_group",
    "Verif.Misc.C09_diameter_violated"
   ],
   "note": "partition and linkage proved; the stronger documented reading (eps bounds the diameter of a group) is disproved"
  },
  {
   "property": "C10",
   "status": "proved",
   "theorems": [
    "Verif.Misc.C10_differential"
   ],
   "note": "lists of any length over an ordered field; fewer than two points raise an error"
  },
  {
   "property": "C11",
   "status": "partial",
   "theorems": [
    "Verif.Split.C11_partial",
    "Verif.Split.C11_members_partial",
    "Verif.Split.C11_count_partial",
    "Verif.Split.C11_violated"
   ],
   "note": "proved for expressions without the character '<' and without line breaks (default delimiters); C11_violated: the internal placeholder can also appear in the input, split('<0>') does not terminate"
  },
  {
   "property": "C12",
   "status": "proved",
   "theorems": [
    "Verif.Misc.C12_vector_index",
    "Verif.Misc.C12_lookup"
   ],
   "note": "all four lookup methods share the modelled body"
  },
  {
   "property": "C13",
   "status": "partial",
   "theorems": [
    "Verif.Misc.C13_extremum_partial",
    "Verif.Misc.C13_call_violated"
   ],
   "note": "formula correct; as a Python call it always ends the program or ignores its arguments (if instead of elif in line 778)"
  },
  {
   "property": "C14",
   "status": "partial",
   "theorems": [
    "Verif.Misc.C14_roundtrip_violated",
    "Verif.Misc.C14_roundtrip_partial",
    "Verif.Misc.C14_read_fortran_partial"
   ],
   "note": "violated: write_xsf writes the last index fastest, read_xsf expects the first index fastest"
  },
  {
   "property": "C15",
   "status": "partial",
   "theorems": [
    "Verif.Misc.C15_origin_violated"
   ],
   "note": "violated: r0 is overwritten with uninitialised memory before the broadcast"
  },
  {
   "property": "C16",
   "status": "partial",
   "theorems": [
    "Verif.Text.C16_partial",
    "Verif.Text.C16_violated"
   ],
   "note": "proved when columns are separated (fewer than 1000 orbitals, elements that fit into the fields), with elements rounded to ten decimals; C16_violated: an element of -10^8 merges with the previous column and the file cannot be read"
  },
  {
   "property": "C17",
   "status": "proved",
   "theorems": [
    "Verif.Lattice.C17_supercell",
    "Verif.Lattice.C17_cells",
    "Verif.Lattice.C17_singular"
   ],
   "note": "every integer supercell with nonzero determinant; a singular one is accepted silently"
  },
  {
   "property": "C18",
   "status": "proved",
   "theorems": [
    "Verif.Lattice.C18_to_supercell",
    "Verif.Lattice.C18_surjective"
   ],
   "note": "unique decomposition for every lattice vector"
  },
  {
   "property": "C19",
   "status": "proved",
   "theorems": [
    "Verif.Mesh.C19_terminates",
    "Verif.Mesh.C19_images",
    "Verif.Mesh.C19_equivalence",
    "Verif.Mesh.C19_periodic"
   ],
   "note": "orbit under all length-preserving lattice maps, termination included"
  },
  {
   "property": "C20",
   "status": "proved",
   "theorems": [
    "Verif.Mesh.C20_irreducibles",
    "Verif.Mesh.C20_one_per_orbit"
   ],
   "note": "exactly one, namely the first, point of each orbit"
  },
  {
   "property": "C21",
   "status": "proved",
   "theorems": [
    "Verif.Mesh.C21_preserves",
    "Verif.Mesh.C21_provenance",
    "Verif.Mesh.C21_recovers",
    "Verif.Mesh.C21_cartesian"
   ],
   "note": "NaN modelled as missing value, epsilon = 0; Cartesian arithmetic shown to agree with integer maps; result is only in the argument, the function returns None"
  },
  {
   "property": "C22",
   "status": "proved",
   "theorems": [
    "Verif.Stack.C22_stack"
   ],
   "note": "real arithmetic; argmin over all candidate origins"
  },
  {
   "property": "C23",
   "status": "proved",
   "theorems": [
    "Verif.Interp.C23_mesh_points",
    "Verif.Interp.C23_mesh_points_1d",
    "Verif.Interp.C23_periodic",
    "Verif.Interp.C23_periodic_1d",
    "Verif.Interp.C23_mesh_points_period",
    "Verif.Interp.C23_period_shifts",
    "Verif.Interp.C23_mesh_points_polar"
   ],
   "note": "all angles, also with stacking of periodic data and polar interpolation; real arithmetic"
  },
  {
   "property": "C24",
   "status": "proved",
   "theorems": [
    "Verif.Interp.C24_convex",
    "Verif.Interp.C24_convex_1d",
    "Verif.Interp.C24_range",
    "Verif.Interp.C24_affine",
    "Verif.Interp.C24_continuous"
   ],
   "note": "convexity, range, affine exactness, continuity in real arithmetic"
  },
  {
   "property": "C25",
   "status": "proved",
   "theorems": [
    "Verif.Interp.C25_resize",
    "Verif.Interp.C25_refine",
    "Verif.Interp.C25_same_shape",
    "Verif.Interp.C25_open",
    "Verif.Interp.C25_resize_1d"
   ],
   "note": "all shapes and process counts via C02; periodic and open axes"
  },
  {
   "property": "C26",
   "status": "proved",
   "theorems": [
    "Verif.Voronoi.C26_to_Voronoi",
    "Verif.Voronoi.C26_nonempty",
    "Verif.Voronoi.C26_class"
   ],
   "note": "compared with the infinitely many equivalent points; integer arithmetic as in Python"
  },
  {
   "property": "C27",
   "status": "proved",
   "theorems": [
    "Verif.Voronoi.C27_wigner_2d",
    "Verif.Voronoi.C27_wigner_2d_total",
    "Verif.Voronoi.C27_wigner"
   ],
   "note": "real arithmetic, arbitrary bond lengths; eps > 0 (wigner) or >= 0 (wigner_2d)"
  },
  {
   "property": "C28",
   "status": "proved",
   "theorems": [
    "Verif.Fourier.C28_k2r",
    "Verif.Fourier.C28_elel",
    "Verif.Fourier.C28_real_space",
    "Verif.Fourier.C28_ph_general",
    "Verif.Fourier.C28_ph",
    "Verif.Fourier.C28_elph"
   ],
   "note": "all process counts, meshes, geometries; el, elel, ph (full mesh, real force constants; mean with -q in general), elph incl. units and masses; the irreducible-wedge branch of ph.q2r and rounding are not modelled"
  },
  {
   "property": "C29",
   "status": "partial",
   "theorems": [
    "Verif.Fourier.C29_bound_partial",
    "Verif.Fourier.C29_exact_partial",
    "Verif.Fourier.C29_violated"
   ],
   "note": "exact if no coefficient falls below the threshold 1e-6, error bound N^2 1e-6 otherwise; exactness is violated for small data; scalar data"
  },
  {
   "property": "C30",
   "status": "proved",
   "theorems": [
    "Verif.Bravais.C30_reciprocals_2d",
    "Verif.Bravais.C30_reciprocals_3d",
    "Verif.Bravais.C30_volume",
    "Verif.Bravais.C30_translations",
    "Verif.Bravais.C30_area",
    "Verif.Bravais.C30_coordinates"
   ],
   "note": "2D and 3D, real arithmetic; np.linalg.inv by its contract"
  },
  {
   "property": "C31",
   "status": "proved",
   "theorems": [
    "Verif.Bravais.C31_primitives",
    "Verif.Bravais.C31_celldm",
    "Verif.Bravais.C31_threefold_axis",
    "Verif.Bravais.C31_free"
   ],
   "note": "all Bravais-lattice indices; scalar products, volume, handedness, both parameter styles and units; comparison with the Quantum ESPRESSO documentation"
  },
  {
   "property": "C32",
   "status": "proved",
   "theorems": [
    "Verif.Bravais.C32_mesh",
    "Verif.Bravais.C32_positions",
    "Verif.Bravais.C32_exact",
    "Verif.Bravais.C32_kpoints"
   ],
   "note": "any number of dimensions"
  },
  {
   "property": "C33",
   "status": "proved",
   "theorems": [
    "Verif.Bands.C33_permutation",
    "Verif.Bands.C33_start",
    "Verif.Bands.C33_by_mean",
    "Verif.Bands.C33_tracking"
   ],
   "note": "all orders of iteration of sets; tracking for permuted orthonormal states with phases, also with dv and across degenerate points"
  },
  {
   "property": "C34",
   "status": "partial",
   "theorems": [
    "Verif.DOS.C34_processes",
    "Verif.DOS.C34_nonneg",
    "Verif.DOS.C34_support",
    "Verif.DOS.C34_window",
    "Verif.DOS.C34_normalized_partial",
    "Verif.DOS.C34_mean_partial",
    "Verif.DOS.C34_violated"
   ],
   "note": "nonnegative, support, window, process count proved in general; normalization and mean energy for meshes without flat triangles; violated for flat bands"
  },
  {
   "property": "C35",
   "status": "partial",
   "theorems": [
    "Verif.Occ.C35_gauss",
    "Verif.Occ.C35_lorentz",
    "Verif.Occ.C35_heaviside",
    "Verif.Occ.C35_fermi_dirac",
    "Verif.Occ.C35_fermi_dirac_symm_partial",
    "Verif.Occ.C35_fermi_dirac_symm_violated",
    "Verif.Occ.C35_double_fermi_dirac",
    "Verif.Occ.C35_two_fermi_dirac_partial",
    "Verif.Occ.C35_two_fermi_dirac_violated",
    "Verif.Occ.C35_methfessel_paxton",
    "Verif.Occ.C35_marzari_vanderbilt",
    "Verif.Occ.C35_matsubara",
    "Verif.Occ.C35_matsubara_limit"
   ],
   "note": "Gauss, Lorentz, Heaviside, Methfessel-Paxton (orders up to 50), Marzari-Vanderbilt, Matsubara without restriction; Fermi-Dirac complement only where the overflow guard does not act (error below exp(-709) proved); two_fermi_dirac is neither monotonic nor symmetric at zero"
  },
  {
   "property": "C36",
   "status": "partial",
   "theorems": [
    "Verif.Occ.C36_fermi_dirac_partial",
    "Verif.Occ.C36_guard_violated",
    "Verif.Occ.C36_gauss",
    "Verif.Occ.C36_marzari_vanderbilt",
    "Verif.Occ.C36_methfessel_paxton",
    "Verif.Occ.C36_methfessel_paxton_violated",
    "Verif.Occ.C36_double_fermi_dirac_partial",
    "Verif.Occ.C36_two_fermi_dirac_partial",
    "Verif.Occ.C36_lorentz",
    "Verif.Occ.C36_heaviside",
    "Verif.Occ.C36_matsubara",
    "Verif.Occ.C36_guard_bound"
   ],
   "note": "all smearings; Fermi-Dirac and superpositions where the overflow guards do not act (violated beyond by tiny amounts); Methfessel-Paxton up to order 49 (StopIteration beyond)"
  },
  {
   "property": "C37",
   "status": "partial",
   "theorems": [
    "Verif.Occ.C37_fermi_dirac_partial",
    "Verif.Occ.C37_fermi_dirac_entropy",
    "Verif.Occ.C37_gauss",
    "Verif.Occ.C37_marzari_vanderbilt",
    "Verif.Occ.C37_methfessel_paxton",
    "Verif.Occ.C37_double_fermi_dirac_partial",
    "Verif.Occ.C37_two_fermi_dirac_partial",
    "Verif.Occ.C37_heaviside",
    "Verif.Occ.C37_guard_bound",
    "Verif.Occ.C37_exact",
    "Verif.Occ.C37_guard_violated"
   ],
   "note": "all smearings with an entropy; Fermi-Dirac and superpositions exactly where the overflow guards do not act. Beyond that, C37_guard_violated, but the error is at most 710 exp(-709) for all arguments (C37_guard_bound, C37_exact)."
  },
  {
   "property": "C38",
   "status": "proved",
   "theorems": [
    "Verif.Occ.C38_returns",
    "Verif.Occ.C38_fixed_point",
    "Verif.Occ.C38_terminates_fermi_dirac",
    "Verif.Occ.C38_terminates_gauss",
    "Verif.Occ.C38_terminates_lorentz",
    "Verif.Occ.C38_impossible"
   ],
   "note": "exact real arithmetic; termination for tolerances above the errors introduced by eps and the overflow guard, satisfied by the defaults"
  },
  {
   "property": "C39",
   "status": "partial",
   "theorems": [
    "Verif.Occ.C39_names",
    "Verif.Occ.C39_unknown_violated"
   ],
   "note": "violated: unknown names yield None"
  },
  {
   "property": "C40",
   "status": "proved",
   "theorems": [
    "Verif.TB.C40_periodic",
    "Verif.TB.C40_periodic_ph",
    "Verif.TB.C40_time_reversal",
    "Verif.TB.C40_symmetrize",
    "Verif.TB.C40_hermitian",
    "Verif.TB.C40_symmetrize_ph",
    "Verif.TB.C40_hermitian_ph"
   ],
   "note": "Bloch sums of el, ph (short range) and elel; exact real/complex arithmetic"
  },
  {
   "property": "C41",
   "status": "partial",
   "theorems": [
    "Verif.TB.C41_bloch",
    "Verif.TB.C41_bloch_elel",
    "Verif.TB.C41_bloch_ph",
    "Verif.TB.C41_sorted",
    "Verif.TB.C41_sorted_ph",
    "Verif.TB.C41_sorted_elel",
    "Verif.TB.C41_vectors",
    "Verif.TB.C41_vectors_ph",
    "Verif.TB.C41_values",
    "Verif.TB.C41_values_ph",
    "Verif.TB.C41_idempotent_partial",
    "Verif.TB.C41_stable",
    "Verif.TB.C41_stable_ph",
    "Verif.TB.C41_idempotent_violated",
    "Verif.TB.C41_eps"
   ],
   "note": "el, ph, elel: Bloch matrix, order, lattice vectors and values proved; a second application changes the model if matrices cancel (violated), a third never does; elph see C73"
  },
  {
   "property": "C42",
   "status": "partial",
   "theorems": [
    "Verif.TB.C42_unfolds",
    "Verif.TB.C42_spectrum",
    "Verif.TB.C42_spectrum_ph",
    "Verif.TB.C42_blocks",
    "Verif.TB.C42_repeated_violated",
    "Verif.TB.C42_folding",
    "Verif.TB.C42_folding_ph",
    "Verif.TB.C42_eigenstate",
    "Verif.TB.C42_sparse",
    "Verif.TB.C42_sparse_dense"
   ],
   "note": "el, ph, elel for unique lattice vectors, any nonsingular supercell: blocks, Bloch sums, eigenstates and the complete spectrum with multiplicities (C42_spectrum); violated for repeated lattice vectors, where the later matrix wins"
  },
  {
   "property": "C43",
   "status": "partial",
   "theorems": [
    "Verif.TB.C43_phase",
    "Verif.TB.C43_phase_ph",
    "Verif.TB.C43_unit_cell_partial",
    "Verif.TB.C43_unit_cell_ph_partial",
    "Verif.TB.C43_unit_cell_violated",
    "Verif.TB.C43_vectors",
    "Verif.TB.C43_vectors_partial",
    "Verif.TB.C43_vectors_violated"
   ],
   "note": "violated if the first cell listed by bravais.supercell is not the origin (phase factor proved in general) and, for ph, for left-handed supercells (primitive vectors reversed)"
  },
  {
   "property": "C44",
   "status": "proved",
   "theorems": [
    "Verif.TB.C44_order",
    "Verif.TB.C44_order_ph",
    "Verif.TB.C44_order_undo",
    "Verif.TB.C44_order_spectrum",
    "Verif.TB.C44_shift",
    "Verif.TB.C44_shift_ph",
    "Verif.TB.C44_shift_undo",
    "Verif.TB.C44_shift_undo_ph",
    "Verif.TB.C44_shift_spectrum"
   ],
   "note": "data of el and ph; spectrum via characteristic polynomial"
  },
  {
   "property": "C45",
   "status": "proved",
   "theorems": [
    "Verif.ElPh.C45_elph",
    "Verif.ElPh.C45_elph_zeros",
    "Verif.ElPh.C45_elph_acoustic",
    "Verif.ElPh.C45_elph_masses_violated",
    "Verif.Phon.C45_asr",
    "Verif.Phon.C45_asr_unchanged",
    "Verif.Phon.C45_zasr",
    "Verif.Phon.C45_zasr_differences",
    "Verif.Phon.C45_asr_D"
   ],
   "note": "all three corrections; in addition it is shown that elph.asr on a coupling divided by masses (the default) spoils the physical sum rule (C45_elph_masses_violated)"
  },
  {
   "property": "C46",
   "status": "proved",
   "theorems": [
    "Verif.Phon.C46_value",
    "Verif.Phon.C46_hermitian",
    "Verif.Phon.C46_inverse",
    "Verif.Phon.C46_form"
   ],
   "note": "value, Hermiticity, inversion and quadratic form"
  },
  {
   "property": "C47",
   "status": "partial",
   "theorems": [
    "Verif.ElPh.C47_history_partial",
    "Verif.ElPh.C47_fresh_partial",
    "Verif.ElPh.C47_asr_violated"
   ],
   "note": "proved for histories of g, standardize, symmetrize; asr (and q2r) do not reset the cache, a counterexample is proved (C47_asr_violated)"
  },
  {
   "property": "C48",
   "status": "partial",
   "theorems": [
    "Verif.Text.C48_partial",
    "Verif.Text.C48_violated"
   ],
   "note": "proved when columns are separated, with elements rounded to six decimals and optional division by degeneracies; C48_violated: an element of -1000 merges with the previous column and the file cannot be read"
  },
  {
   "property": "C49",
   "status": "partial",
   "theorems": [
    "Verif.Text.C49_partial",
    "Verif.Text.C49_violated"
   ],
   "note": "proved when divide_mass of phonons with long-range terms agrees with that of the coupling (text .wigner format, binary format not modelled); C49_violated: otherwise the coupling is divided by the square root of the mass twice"
  },
  {
   "property": "C50",
   "status": "partial",
   "theorems": [
    "Verif.Text.C50_partial",
    "Verif.Text.C50_violated"
   ],
   "note": "proved for Python 2 (next method of files); C50_violated: with Python 3, read_data fails on every file because text.next does not exist"
  },
  {
   "property": "C51",
   "status": "proved",
   "theorems": [
    "Verif.Diag.C51_value",
    "Verif.Diag.C51_zero",
    "Verif.Diag.C51_periodic",
    "Verif.Diag.C51_even",
    "Verif.Diag.C51_nonpos"
   ],
   "note": "value at mesh points, q = 0 special value as coded, periodicity, evenness, sign"
  },
  {
   "property": "C52",
   "status": "partial",
   "theorems": [
    "Verif.Diag.C52_symmetrize",
    "Verif.Diag.C52_same",
    "Verif.Diag.C52_value_fermi",
    "Verif.Diag.C52_result",
    "Verif.Diag.C52_hermitian",
    "Verif.Diag.C52_hermitian_symmetrize",
    "Verif.Diag.C52_contact_violated",
    "Verif.Diag.C52_negative",
    "Verif.Diag.C52_negative_diagonal",
    "Verif.Diag.C52_processes",
    "Verif.Diag.C52_value",
    "Verif.Diag.C52_inversion",
    "Verif.Diag.C52_eps"
   ],
   "note": "Hermitian for G = g with any window/contact interaction, and for symmetrized G != g without contact interaction; with both it is not Hermitian (C52_contact_violated). Negative semidefiniteness without contact interaction. C52_value/C52_eps identify the Brillouin-zone sum, C52_inversion relates q and -q."
  },
  {
   "property": "C53",
   "status": "proved",
   "theorems": [
    "Verif.Diag.C53_value_fermi",
    "Verif.Diag.C53_continuous_fermi",
    "Verif.Diag.C53_value",
    "Verif.Diag.C53_symmetric",
    "Verif.Diag.C53_continuous",
    "Verif.Diag.C53_mean",
    "Verif.Diag.C53_sum",
    "Verif.Diag.C53_conj"
   ],
   "note": "limit eps = 0; for Fermi-Dirac for energies not affected by the overflow guard; also value of the whole sum, symmetry under exchange of q points"
  },
  {
   "property": "C54",
   "status": "partial",
   "theorems": [
    "Verif.Diag.C54_partial",
    "Verif.Diag.C54_violated"
   ],
   "note": "density-density interactions; for four-index interactions an exception is always raised (C54_violated)"
  },
  {
   "property": "C55",
   "status": "proved",
   "theorems": [
    "Verif.MD.C55_hessian",
    "Verif.MD.C55_forces",
    "Verif.MD.C55_sparse_jacobian",
    "Verif.MD.C55_sparse_hessian"
   ],
   "note": "dense and sparse drivers, exact arithmetic; eigendecomposition and chemical potential external"
  },
  {
   "property": "C56",
   "status": "proved",
   "theorems": [
    "Verif.MD.C56_zero",
    "Verif.MD.C56_relative",
    "Verif.MD.C56_idempotent",
    "Verif.MD.C56_translation"
   ],
   "note": "exact arithmetic"
  },
  {
   "property": "C57",
   "status": "proved",
   "theorems": [
    "Verif.Plot.C57_arrange",
    "Verif.Plot.C57_empty"
   ],
   "note": "images of equal size; zero images are an error"
  },
  {
   "property": "C58",
   "status": "proved",
   "theorems": [
    "Verif.Models.Chain.C58_chain_hamiltonian",
    "Verif.Models.Chain.C58_chain_dynamical_matrix",
    "Verif.Models.Chain.C58_chain_coupling",
    "Verif.Models.Graphene.C58_graphene_hamiltonian",
    "Verif.Models.Graphene.C58_graphene_rotation",
    "Verif.Models.Graphene.C58_graphene_dynamical_matrix",
    "Verif.Models.Graphene.C58_graphene_decoupled",
    "Verif.Models.Graphene.C58_graphene_coupling",
    "Verif.Models.Graphene.C58_graphene_derivative",
    "Verif.Models.Graphene.C58_graphene_coulomb",
    "Verif.Models.Graphene.C58_graphene_rigid",
    "Verif.Models.Graphene.C58_graphene_flexural",
    "Verif.Models.TaS2.C58_tas2_hamiltonian",
    "Verif.Models.TaS2.C58_tas2_rotation",
    "Verif.Models.TaS2.C58_tas2_coupling",
    "Verif.Models.TaS2.C58_tas2_derivative",
    "Verif.Models.TaS2.C58_tas2_geometry",
    "Verif.Models.TaS2.C58_tas2_hermitian",
    "Verif.Models.TaS2.C58_tas2_periodic",
    "Verif.Models.TaS2.C58_tas2_real",
    "Verif.Models.TaS2.C58_tas2_sum_rule"
   ],
   "note": "exact arithmetic, all parameter values; additionally rotational symmetry of the Hamiltonians, couplings as derivatives, geometry, invariance of the graphene force constants under rigid rotations (quadratic flexural modes)"
  },
  {
   "property": "C59",
   "status": "partial",
   "theorems": [
    "Verif.ElEl.C59_partial",
    "Verif.ElEl.C59_dd",
    "Verif.ElEl.C59_violated"
   ],
   "note": "proved for at most 256 points per dimension and q mesh contained in k mesh; C59_violated: with 257 points the last index is confused with the first one (NumPy 1) or an OverflowError is raised (NumPy 2)"
  },
  {
   "property": "C60",
   "status": "proved",
   "theorems": [
    "Verif.Phon.C60_complete",
    "Verif.Phon.C60_nonneg",
    "Verif.Phon.C60_direction"
   ],
   "note": "one q point and band; exact arithmetic"
  },
  {
   "property": "C61",
   "status": "partial",
   "theorems": [
    "Verif.MPI.C61_sample_race_violated",
    "Verif.MPI.C61_sample_leaders_partial"
   ],
   "note": "violated by a schedule for processes that are not first in their column; holds for the others"
  },
  {
   "property": "C62",
   "status": "partial",
   "theorems": [
    "Verif.Interp.C62_integer_resize_violated"
   ],
   "note": "violated: an integer result array truncates the interpolated values"
  },
  {
   "property": "C63",
   "status": "proved",
   "theorems": [
    "Verif.Mesh.C63_complete_k"
   ],
   "note": "symmetries of the triangular lattice, all mesh sizes"
  },
  {
   "property": "C64",
   "status": "partial",
   "theorems": [
    "Verif.Voronoi.C64_shift_partial",
    "Verif.Voronoi.C64_shift_violated"
   ],
   "note": "proved for shifts below a third of the mesh; violated for large shifts"
  },
  {
   "property": "C65",
   "status": "proved",
   "theorems": [
    "Verif.Voronoi.C65_distinct",
    "Verif.Voronoi.C65_selection"
   ],
   "note": "all process counts"
  },
  {
   "property": "C66",
   "status": "partial",
   "theorems": [
    "Verif.Bravais.C66_repeat_violated",
    "Verif.Bravais.C66_repeat_partial"
   ],
   "note": "violated for celldm with bohr=False: the caller's list is modified in place; holds otherwise"
  },
  {
   "property": "C67",
   "status": "proved",
   "theorems": [
    "Verif.Bands.C67_permutation",
    "Verif.Bands.C67_matching"
   ],
   "note": "one point; the loop over points is independent"
  },
  {
   "property": "C68",
   "status": "proved",
   "theorems": [
    "Verif.Bands.C68_nonneg",
    "Verif.Bands.C68_sum",
    "Verif.Bands.C68_le_one",
    "Verif.Bands.C68_bloch",
    "Verif.Bands.C68_other"
   ],
   "note": "default blocks; one k point (the loop over k points is C02)"
  },
  {
   "property": "C69",
   "status": "partial",
   "theorems": [
    "Verif.DOS.C69_hit",
    "Verif.DOS.C69_processes",
    "Verif.DOS.C69_origin_violated"
   ],
   "note": "characterization per triangle and independence of the process count proved; independence of the origin is violated: crossings on the boundary of the mesh are counted once per periodic image"
  },
  {
   "property": "C70",
   "status": "partial",
   "theorems": [
    "Verif.DOS.C70_constant",
    "Verif.DOS.C70_nonneg",
    "Verif.DOS.C70_integral_partial",
    "Verif.DOS.C70_violated"
   ],
   "note": "integral proved for meshes without flat triangles; violated for flat bands, where the result is infinite at one energy and zero otherwise"
  },
  {
   "property": "C72",
   "status": "proved",
   "theorems": [
    "Verif.TB.C72_velocity"
   ],
   "note": "exact arithmetic"
  },
  {
   "property": "C74",
   "status": "proved",
   "theorems": [
    "Verif.Phon.C74_reciprocal",
    "Verif.Phon.C74_acoustic",
    "Verif.Phon.C74_rotation",
    "Verif.Phon.C74_nearest",
    "Verif.Phon.C74_unchanged"
   ],
   "note": "Gram-Schmidt in exact arithmetic on the first process; vectors -R must be present (missing ones are silently replaced by index 0)"
  },
  {
   "property": "C75",
   "status": "proved",
   "theorems": [
    "Verif.Phon.C75_inverse",
    "Verif.Phon.C75_odd",
    "Verif.Phon.C75_strictMono"
   ],
   "note": "exact arithmetic"
  },
  {
   "property": "C76",
   "status": "partial",
   "theorems": [
    "Verif.Phon.C76_time_reversal",
    "Verif.Phon.C76_hermitian_partial",
    "Verif.Phon.C76_acoustic",
    "Verif.Phon.C76_hermitian",
    "Verif.Phon.C76_positive",
    "Verif.Phon.C76_quadrupole",
    "Verif.Phon.C76_hermitian_violated"
   ],
   "note": "C76_hermitian_violated: with neutral charges that are not multiples of one tensor, the self term D0_lr, and thus the long-range part at all q points, is not Hermitian. It is for charges proportional to one tensor (e.g., two atoms) without quadrupoles (C76_hermitian); in general only the q-dependent part is (C76_hermitian_partial)."
  },
  {
   "property": "C77",
   "status": "proved",
   "theorems": [
    "Verif.Phon.C77_update",
    "Verif.Phon.C77_roundtrip",
    "Verif.Phon.C77_center"
   ],
   "note": "D_lr is not exactly periodic because of the cutoff; exact deviation formula proved; apply_asr_simple not included"
  },
  {
   "property": "C73",
   "status": "partial",
   "theorems": [
    "Verif.ElPh.C73_fourier_partial",
    "Verif.ElPh.C73_symmetrize_partial",
    "Verif.ElPh.C73_symmetric_partial",
    "Verif.ElPh.C73_sorted",
    "Verif.ElPh.C73_defined",
    "Verif.ElPh.C73_symmetrize_violated"
   ],
   "note": "for eps = 0 and if no exception is raised; C73_defined gives a sufficient condition and C73_symmetrize_violated an input for which an array of wrong shape is allocated (elph.py line 627)"
  },
  {
   "property": "C78",
   "status": "proved",
   "theorems": [
    "Verif.ElPh.C78_folding",
    "Verif.ElPh.C78_blocks",
    "Verif.ElPh.C78_sparse",
    "Verif.ElPh.C78_defined"
   ],
   "note": "one process; long-range terms of sparse variant not included"
  },
  {
   "property": "C79",
   "status": "proved",
   "theorems": [
    "Verif.Diag.C79_negative",
    "Verif.Diag.C79_rigid"
   ],
   "note": "for non-zero density of states"
  },
  {
   "property": "C80",
   "status": "partial",
   "theorems": [
    "Verif.Phon.Screened.C80_criterion",
    "Verif.Phon.Screened.C80_screened",
    "Verif.Phon.Screened.C80_hexagonal_screened",
    "Verif.Phon.Screened.C80_hexagonal",
    "Verif.Phon.Screened.C80_cubic_screened",
    "Verif.Phon.Screened.C80_hexagonal_violated",
    "Verif.Phon.Screened.C80_cubic_violated",
    "Verif.Phon.C80_sound",
    "Verif.Phon.C80_complete_partial",
    "Verif.Phon.C80_complete_violated"
   ],
   "note": "Only vectors below the cutoff are included (C80_sound). None is missed for orthogonal primitive vectors (C80_complete_partial), for hexagonal unit cells with default parameters (C80_hexagonal), and for skewed cells in general if dielectric constants are large enough (C80_criterion, C80_screened), i.e., 4 / 3 for hexagonal cells (C80_hexagonal_screened) and 3 / 2 for primitive cells of face-centered or body-centered cubic lattices (C80_cubic_screened). Vectors are missed for skewed cells (C80_complete_violated), in particular for all two-dimensional hexagonal crystals in supercells of two times two unit cells (C80_hexagonal_violated), and for all face-centered cubic crystals with dielectric constants below 28 / 25 (C80_cubic_violated)."
  },
  {
   "property": "C81",
   "status": "proved",
   "theorems": [
    "Verif.Diag.C81_value",
    "Verif.Diag.C81_derivative",
    "Verif.Diag.C81_variational",
    "Verif.Diag.C81_variational_fermi",
    "Verif.Diag.C81_basis"
   ],
   "note": "Fermi-Dirac: energies not affected by the overflow guard"
  },
  {
   "property": "C82",
   "status": "proved",
   "theorems": [
    "Verif.Diag.C82_basis",
    "Verif.Diag.C82_linear"
   ],
   "note": "density-density interactions; all bands in the bubble"
  },
  {
   "property": "C83",
   "status": "proved",
   "theorems": [
    "Verif.Diag.C83_hermitian",
    "Verif.Diag.C83_negative",
    "Verif.Diag.C83_dos"
   ],
   "note": "exact arithmetic"
  },
  {
   "property": "C84",
   "status": "proved",
   "theorems": [
    "Verif.Diag.C84_value",
    "Verif.Diag.C84_bounds",
    "Verif.Diag.C84_inversion",
    "Verif.Diag.C84_sum"
   ],
   "note": "exact arithmetic"
  },
  {
   "property": "C85",
   "status": "proved",
   "theorems": [
    "Verif.Diag.C85_causal",
    "Verif.Diag.C85_conj",
    "Verif.Diag.C85_value"
   ],
   "note": "exact arithmetic"
  },
  {
   "property": "C86",
   "status": "proved",
   "theorems": [
    "Verif.Diag.C86_symmetric",
    "Verif.Diag.C86_even",
    "Verif.Diag.C86_positive"
   ],
   "note": "not for dc_only with non-equidistant meshes"
  },
  {
   "property": "C87",
   "status": "proved",
   "theorems": [
    "Verif.Diag.C87_hermitian",
    "Verif.Diag.C87_inversion",
    "Verif.Diag.C87_static",
    "Verif.Diag.C87_window"
   ],
   "note": "exact arithmetic; coupling g with itself, no contact interaction"
  },
  {
   "property": "C88",
   "status": "proved",
   "theorems": [
    "Verif.ElPh.C88_conj",
    "Verif.ElPh.C88_plane"
   ],
   "note": "exact arithmetic; the second part for lattice vectors in the plane and no quadrupoles"
  },
  {
   "property": "C89",
   "status": "proved",
   "theorems": [
    "Verif.MD.C89_diagonalized",
    "Verif.MD.C89_gradient",
    "Verif.MD.C89_hessian",
    "Verif.MD.C89_sum",
    "Verif.MD.C89_given",
    "Verif.MD.C89_translation"
   ],
   "note": "exact arithmetic; differentiable eigendecomposition along the path and exact chemical potential assumed; energies equal or separated by more than eps; equal to the gradient with respect to the given displacements only up to the removed collective displacement"
  },
  {
   "property": "C90",
   "status": "proved",
   "theorems": [
    "Verif.Bands.C90_unordered",
    "Verif.Bands.C90_permutation",
    "Verif.Bands.C90_tracking",
    "Verif.Bands.C90_nosym"
   ],
   "note": "proved for arbitrary mesh sizes; tracking under the assumption that bands can be followed via dominant overlaps"
  },
  {
   "property": "C91",
   "status": "partial",
   "theorems": [
    "Verif.Bands.C91_values",
    "Verif.Bands.C91_order_partial",
    "Verif.Bands.C91_violated"
   ],
   "note": "proved for eigenvalues and eigenvectors, and for the band order without shared memory; C91_violated: with shared_memory=True the name of the shared array is rebound on rank 0, other processes on the same node find uninitialized memory"
  },
  {
   "property": "C92",
   "status": "partial",
   "theorems": [
    "Verif.Bands.C92_gauge",
    "Verif.Bands.C92_phase",
    "Verif.Bands.C92_hermitian",
    "Verif.Bands.C92_general",
    "Verif.Bands.C92_rotate_partial",
    "Verif.Bands.C92_rotate_violated"
   ],
   "note": "proved except rotate=True; C92_rotate_violated: the rotation assumes x components of all atoms first, while ph.Model orders components by atom, so that displacements of different atoms are mixed"
  },
  {
   "property": "C93",
   "status": "partial",
   "theorems": [
    "Verif.Diag.C93_limit_partial",
    "Verif.Diag.C93_self_energy",
    "Verif.Diag.C93_negative",
    "Verif.Diag.C93_violated"
   ],
   "note": "the limit is proved for the real part and for the self-energy; C93_violated: susceptibility2 does not discard the imaginary part, the result for a flat band away from the Fermi level is never real"
  },
  {
   "property": "C94",
   "status": "proved",
   "theorems": [
    "Verif.Eliashberg.C94_full",
    "Verif.Eliashberg.C94_nonneg",
    "Verif.Eliashberg.C94_bounds",
    "Verif.Eliashberg.C94_scale",
    "Verif.Eliashberg.C94_result"
   ],
   "note": "λ, ω_log and second moment from the irreducible q points as written; the double Fermi-surface averages are parameters."
  },
  {
   "property": "C95",
   "status": "proved",
   "theorems": [
    "Verif.Eliashberg.C95_increasing",
    "Verif.Eliashberg.C95_cutoff",
    "Verif.Eliashberg.C95_mustar",
    "Verif.Eliashberg.C95_corrections",
    "Verif.Eliashberg.C95_scale"
   ],
   "note": "McMillan/Allen-Dynes formula over the reals."
  },
  {
   "property": "C96",
   "status": "proved",
   "theorems": [
    "Verif.Phon.C96_sum",
    "Verif.Phon.C96_mass",
    "Verif.Phon.C96_zero"
   ],
   "note": "Force constants over the reals; np.prod(nq) is a parameter."
  },
  {
   "property": "C97",
   "status": "proved",
   "theorems": [
    "Verif.Phon.C97_modes",
    "Verif.Phon.C97_nonneg",
    "Verif.Phon.C97_processes",
    "Verif.Phon.C97_integral",
    "Verif.Phon.C97_normalized",
    "Verif.Phon.C97_unstable"
   ],
   "note": "Dynamical matrix independent of frequency in the statement about the integral. np.linalg.inv is exact and fails for singular matrices only."
  },
  {
   "property": "C98",
   "status": "partial",
   "theorems": [
    "Verif.Plot.C98_cell",
    "Verif.Plot.C98_cover",
    "Verif.Plot.C98_unique",
    "Verif.Plot.C98_frame_partial",
    "Verif.Plot.C98_frame_square_partial",
    "Verif.Plot.C98_frame_violated",
    "Verif.Plot.C98_pixel",
    "Verif.Plot.C98_image",
    "Verif.Plot.C98_wedge",
    "Verif.Plot.C98_equivalent"
   ],
   "note": "The frame contains the whole zone for hexagonal lattices in any orientation and for the square lattice with angle0 = 0. For the square lattice with angle0 = 45 the corners are cut off (C98_frame_violated). return_k and the broadcast switch are not modelled."
  },
  {
   "property": "C99",
   "status": "proved",
   "theorems": [
    "Verif.Plot.C99_area",
    "Verif.Plot.C99_adjacent",
    "Verif.Plot.C99_center",
    "Verif.Plot.C99_closed"
   ],
   "note": "With center=False the argument y is ignored by the code."
  },
  {
   "property": "C100",
   "status": "proved",
   "theorems": [
    "Verif.Plot.C100_crop",
    "Verif.Plot.C100_identity",
    "Verif.Plot.C100_range"
   ],
   "note": "Exact arithmetic; one color channel (the function acts on each channel separately)."
  },
  {
   "property": "C101",
   "status": "partial",
   "theorems": [
    "Verif.Plot.C101_color",
    "Verif.Plot.C101_default",
    "Verif.Plot.C101_monotone",
    "Verif.Plot.C101_again_partial",
    "Verif.Plot.C101_violated"
   ],
   "note": "Violated for a second use with another range: strings in the color map are replaced by numbers in place (C101_violated). Holds for the same range or without strings (C101_again_partial)."
  },
  {
   "property": "C102",
   "status": "partial",
   "theorems": [
    "Verif.Plot.C102_adjust_partial",
    "Verif.Plot.C102_columns",
    "Verif.Plot.C102_violated"
   ],
   "note": "Requires that neighbouring columns are more than one new pixel apart and that there is more than one row; if two of them fall into the same new column, the function fails (C102_violated)."
  },
  {
   "property": "C103",
   "status": "partial",
   "theorems": [
    "Verif.Bravais.C103_path",
    "Verif.Bravais.C103_length",
    "Verif.Bravais.C103_qe",
    "Verif.Bravais.C103_moveG",
    "Verif.Bravais.C103_qe_violated"
   ],
   "note": "The Quantum ESPRESSO input loses an inner Gamma point that has been moved (C103_qe_violated). C103_moveG requires that no two successive points are Gamma."
  },
  {
   "property": "C104",
   "status": "partial",
   "theorems": [
    "Verif.Bravais.C104_boundary",
    "Verif.Bravais.C104_generated",
    "Verif.Bravais.C104_monoclinic_violated"
   ],
   "note": "C104_boundary covers ibrav = 1, 2, 3, -3, 4, 6, 8; C104_generated the points of -3, -9, 7 derived from others. For the monoclinic lattice with unique axis b, the crystal coordinates of unique axis c are used without swapping axes (C104_monoclinic_violated)."
  },
  {
   "property": "C105",
   "status": "proved",
   "theorems": [
    "Verif.Bravais.C105_corners",
    "Verif.Bravais.C105_length",
    "Verif.Bravais.C105_mesh",
    "Verif.Bravais.C105_straight",
    "Verif.Bravais.C105_lift",
    "Verif.Bravais.C105_density",
    "Verif.Bravais.C105_density_mesh"
   ],
   "note": "Exact arithmetic. C105_corners, C105_length and C105_mesh are about lift_degen=False; C105_lift bounds the difference. C105_density and C105_density_mesh determine the numbers of points."
  },
  {
   "property": "C106",
   "status": "partial",
   "theorems": [
    "Verif.Plot.C106_outline_partial",
    "Verif.Plot.C106_closed",
    "Verif.Plot.C106_square_violated"
   ],
   "note": "Holds for 60 and 120 degrees (C106_outline_partial). For 90 degrees the polygon is larger by a factor of two (C106_square_violated)."
  },
  {
   "property": "C107",
   "status": "partial",
   "theorems": [
    "Verif.Bravais.C107_partial",
    "Verif.Bravais.C107_violated"
   ],
   "note": "Holds if A and B differ but have the same third component (C107_partial). In general violated: the length is calculated from two components only, and for A = B any point is accepted (C107_violated)."
  },
  {
   "property": "C108",
   "status": "partial",
   "theorems": [
    "Verif.Text.C108_partial",
    "Verif.Text.C108_violated"
   ],
   "note": "Holds for meshes below 1000 and second components of at most 9 (C108_partial); otherwise columns touch and the file is misread or unreadable (C108_violated)."
  },
  {
   "property": "C109",
   "status": "proved",
   "theorems": [
    "Verif.Text.C109_roundtrip"
   ],
   "note": "Exact decimal arithmetic."
  },
  {
   "property": "C110",
   "status": "proved",
   "theorems": [
    "Verif.Text.C110_roundtrip"
   ],
   "note": "The array is a function of its five indices; one process."
  },
  {
   "property": "C111",
   "status": "proved",
   "theorems": [
    "Verif.Text.C111_bands",
    "Verif.Text.C111_freq",
    "Verif.Text.C111_path"
   ],
   "note": "Formats %w.df with d > 0, at least one wave vector; the heuristics of read_bands for files with a single number per line are not modelled."
  },
  {
   "property": "C112",
   "status": "proved",
   "theorems": [
    "Verif.Text.C112_trajectory",
    "Verif.Text.C112_roundtrip",
    "Verif.Text.C112_incompatible"
   ],
   "note": "One process; labels without white space; the line with the cell is an arbitrary line of text."
  },
  {
   "property": "C113",
   "status": "partial",
   "theorems": [
    "Verif.Text.C113_dyn_partial",
    "Verif.Text.C113_dyn_violated",
    "Verif.Text.C113_ifc_partial",
    "Verif.Text.C113_labels_violated",
    "Verif.Text.C113_isotopes_violated"
   ],
   "note": "Force constants: C113_ifc_partial for labels of at most two characters that determine the mass, otherwise C113_labels_violated, C113_isotopes_violated. Dynamical matrices: C113_dyn_partial if columns do not touch; effective charges are never read again (C113_dyn_violated)."
  },
  {
   "property": "C114",
   "status": "proved",
   "theorems": [
    "Verif.MD.C114_total",
    "Verif.MD.C114_pauli",
    "Verif.MD.C114_gauge",
    "Verif.MD.C114_atom",
    "Verif.MD.C114_atoms"
   ],
   "note": "Exact arithmetic; eigenvectors returned by eigh enter as a parameter with unitarity as hypothesis."
  },
  {
   "property": "C115",
   "status": "partial",
   "theorems": [
    "Verif.MD.C115_partial",
    "Verif.MD.C115_terminates",
    "Verif.MD.C115_violated"
   ],
   "note": "Holds if the mean chemical potential separates the n / 2 lower from the upper bands (C115_partial); both searches succeed whenever the numbers are possible (C115_terminates). Otherwise the number of electrons is not conserved (C115_violated)."
  },
  {
   "property": "C116",
   "status": "proved",
   "theorems": [
    "Verif.MD.C116_lambda",
    "Verif.MD.C116_order",
    "Verif.MD.C116_range",
    "Verif.MD.C116_unstable",
    "Verif.MD.C116_gauge",
    "Verif.MD.C116_driver"
   ],
   "note": "Dense matrices; exact arithmetic; eigenvectors of eigh enter as a parameter."
  },
  {
   "property": "C117",
   "status": "partial",
   "theorems": [
    "Verif.ElPh.C117_norm",
    "Verif.ElPh.C117_squared",
    "Verif.ElPh.C117_phase",
    "Verif.ElPh.C117_sample",
    "Verif.ElPh.C117_processes",
    "Verif.ElPh.C117_momentum",
    "Verif.ElPh.C117_input_partial",
    "Verif.ElPh.C117_input_violated"
   ],
   "note": "Everything but the last statement. With squared but neither U nor u, transform overwrites its argument (C117_input_violated); C117_input_partial covers all other cases."
  },
  {
   "property": "C118",
   "status": "partial",
   "theorems": [
    "Verif.ElEl.C118_nonneg",
    "Verif.ElEl.C118_uniform",
    "Verif.ElEl.C118_background",
    "Verif.ElEl.C118_translation",
    "Verif.ElEl.C118_rotation",
    "Verif.ElEl.C118_quadratic",
    "Verif.ElEl.C118_energy",
    "Verif.ElEl.C118_gamma_violated"
   ],
   "note": "Right-handed cells, exact arithmetic. Not for files of Gamma-point calculations, which contain half of the reciprocal vectors (C118_gamma_violated)."
  },
  {
   "property": "C119",
   "status": "partial",
   "theorems": [
    "Verif.Binary.C119_density",
    "Verif.Binary.C119_wave",
    "Verif.Binary.C119_truncated_violated"
   ],
   "note": "Complete files only (C119_density, C119_wave). A truncated density is accepted without any message (C119_truncated_violated)."
  },
  {
   "property": "C71",
   "status": "partial",
   "theorems": [
    "Verif.Isoline.C71_segment_partial",
    "Verif.Isoline.C71_nothing",
    "Verif.Isoline.C71_exception",
    "Verif.Isoline.C71_segment_violated",
    "Verif.Isoline.C71_join",
    "Verif.Isoline.C71_long",
    "Verif.Isoline.C71_progress",
    "Verif.Isoline.C71_result",
    "Verif.Isoline.C71_closed",
    "Verif.Isoline.C71_maximal",
    "Verif.Isoline.C71_processes",
    "Verif.Isoline.C71_defined_partial",
    "Verif.Isoline.C71_inside",
    "Verif.Isoline.C71_zone_partial",
    "Verif.Isoline.C71_corner_violated"
   ],
   "note": "Everything for given triangles unless two corners are at the given energy and the third is above, in which case a TypeError is raised instead of drawing the line between the two corners (C71_exception, C71_segment_violated). Points drawn are always in the Brillouin zone and at the given energy (C71_inside). All such points are drawn if the number of mesh points per dimension is a multiple of three and the energy is not that of a mesh point or a point halfway between mesh points (C71_zone_partial); otherwise the corners of the zone are never reached (C71_corner_violated)."
  },
  {
   "property": "C120",
   "status": "partial",
   "theorems": [
    "Verif.MD.C120_electrons_partial",
    "Verif.MD.C120_stride_violated",
    "Verif.MD.C120_positions",
    "Verif.MD.C120_assertion",
    "Verif.MD.C120_phonons_partial",
    "Verif.MD.C120_gamma_partial",
    "Verif.MD.C120_long_range_violated"
   ],
   "note": "Electrons: strides that divide the number of k points; otherwise data is attributed to wrong k points (C120_stride_violated). Phonons: without long-range terms, which would be counted twice (C120_long_range_violated), and without further keyword arguments. Dense matrices, exact arithmetic, divide_ndegen=True."
  },
  {
   "property": "C121",
   "status": "partial",
   "theorems": [
    "Verif.Namelist.C121_ph",
    "Verif.Namelist.C121_q2r",
    "Verif.Namelist.C121_epw",
    "Verif.Namelist.C121_matdyn_partial",
    "Verif.Namelist.C121_slash_violated",
    "Verif.Namelist.C121_comment_violated",
    "Verif.Namelist.C121_placeholder_violated",
    "Verif.Namelist.C121_blanks"
   ],
   "note": "Strings without quotation marks, exclamation marks, backslashes, control characters and triple underscores; for matdyn.x also without slashes (C121_slash_violated: the reader of q points takes a slash within a string for the end of the namelist; C121_comment_violated: exclamation marks in strings start comments; C121_placeholder_violated: infinite loop for text such as ___1___). Floating-point numbers as rational numbers, with the exactness of repr as hypothesis. Numbered parameters of epw.x are nonempty lists of values which Python does not take for false."
  },
  {
   "property": "C122",
   "status": "partial",
   "theorems": [
    "Verif.Pwi.C122_partial",
    "Verif.Pwi.C122_magnetization_violated",
    "Verif.Pwi.C122_zero_violated"
   ],
   "note": "Strings as in C121. Single values for all parameters but celldm: lists such as starting_magnetization are read as strings with brackets (C122_magnetization_violated). Zeros in celldm are read as None (C122_zero_violated). Masses are read as far as their format with %.12g is exact (hypothesis). Units in lower case without braces, positions for given space groups without spaces."
  },
  {
   "property": "C123",
   "status": "partial",
   "theorems": [
    "Verif.Win.C123_partial",
    "Verif.Win.C123_grid_violated"
   ],
   "note": "The claim fails for every structure: the mesh is written with a colon, so that reading the k points raises NameError (C123_grid_violated). Proved for the file with this colon replaced by an equality sign: everything is read back, except that empty projections and paths are absent. Strings are trimmed and contain neither newlines nor the words which end a block."
  },
  {
   "property": "C124",
   "status": "proved",
   "theorems": [
    "Verif.Irr.C124_mesh",
    "Verif.Irr.C124_correct",
    "Verif.Irr.C124_square",
    "Verif.Irr.C124_square_unset"
   ],
   "note": "Exact real arithmetic. Crystal given by finitely many real force constants; symmetry stated bond by bond. C124_square_unset proves that for the square lattice the irreducible points leave the second point along the first axis unset, in line with the comment in the code that the rotation is disabled."
  },
  {
   "property": "C125",
   "status": "proved",
   "theorems": [
    "Verif.ToFlfrc.C125_mesh",
    "Verif.ToFlfrc.C125_inverse"
   ],
   "note": "Exact arithmetic. The text of the file is the subject of C113; here, the arrays before writing and after reading are considered, including their distribution over processes and the sum over processes."
  },
  {
   "property": "C126",
   "status": "proved",
   "theorems": [
    "Verif.Proj.C126_select",
    "Verif.Proj.C126_sum",
    "Verif.Proj.C126_other"
   ],
   "note": "Names consist of ASCII characters. The expansion of braces is the one of C11. Projections are elements of any commutative ring. The regular expression is modelled as a deterministic scan, which is what the greedy match amounts to since all components are optional."
  },
  {
   "property": "C127",
   "status": "partial",
   "theorems": [
    "Verif.Proj.C127_names_partial",
    "Verif.Proj.C127_distinct_partial",
    "Verif.Proj.C127_atoms_partial",
    "Verif.Proj.C127_violated"
   ],
   "note": "Proved for labels of atomic species which are symbols of elements (a capital letter and optionally a small letter). C127_violated: for the labels S, S, and S1, which are valid in Quantum ESPRESSO, the names depend on the order of the set, and for one of the orders two names are the same. The format of the lines is the one of projwfc.x up to 9999 states and 999 atoms."
  },
  {
   "property": "C128",
   "status": "partial",
   "theorems": [
    "Verif.ElPh.C128_mesh",
    "Verif.ElPh.C128_new_partial",
    "Verif.ElPh.C128_cache_violated"
   ],
   "note": "C128_mesh: coupling on the meshes, without restrictions. C128_new_partial: other points, if they differ from the wave vector in the cache. C128_cache_violated: update_short_range keeps the cache, so for the cached wave vector the coupling for the old parameters is returned. Exact arithmetic, r given (Wigner-Seitz cells from q2r)."
  },
  {
   "property": "C129",
   "status": "partial",
   "theorems": [
    "Verif.Pwo.C129_partial",
    "Verif.Pwo.C129_none",
    "Verif.Pwo.C129_insulator_violated",
    "Verif.Pwo.C129_level",
    "Verif.Pwo.C129_deep_violated"
   ],
   "note": "C129_partial, C129_none, C129_level: general outputs. C129_insulator_violated: if only the highest occupied level is written, read_pwo fails with UnboundLocalError. C129_deep_violated: for energies below -100 eV the columns touch, the conversion fails and energies are silently reported as None. Files as lists of lines, decimal numbers as rational numbers."
  },
  {
   "property": "C130",
   "status": "proved",
   "theorems": [
    "Verif.Pwo.C130_read",
    "Verif.Pwo.C130_eband",
    "Verif.Pwo.C130_demet"
   ],
   "note": "C130_read, C130_eband, C130_demet. The smearing functions are parameters (C39). Exact arithmetic."
  },
  {
   "property": "C131",
   "status": "proved",
   "theorems": [
    "Verif.Phon.C131_decay",
    "Verif.Phon.C131_limit_2d",
    "Verif.Phon.C131_limit_perp",
    "Verif.Phon.C131_limit_3d"
   ],
   "note": "C131_limit_2d, C131_limit_perp, C131_limit_3d, C131_decay. Exact arithmetic."
  },
  {
   "property": "C132",
   "status": "proved",
   "theorems": [
    "Verif.Occ.C132_mean",
    "Verif.Occ.C132_clip",
    "Verif.Occ.C132_balance",
    "Verif.Occ.C132_decreasing"
   ],
   "note": "C132_mean, C132_clip, C132_balance, C132_decreasing. Real arguments, exact arithmetic."
  },
  {
   "property": "C133",
   "status": "partial",
   "theorems": [
    "Verif.Xml.C133_partial",
    "Verif.Xml.C133_default_violated",
    "Verif.Xml.C133_squeeze_violated",
    "Verif.Xml.C133_read"
   ],
   "note": "C133_read: reading holds for both values of old, files given by their structure. C133_partial: what is written is read again with old=True (meshes up to 10^6 x 10^6, lattice vectors of moderate size reciprocal up to 1e-9). It fails with the default old=False for all data (C133_default_violated), and for the array as returned for a single band, whose k axes are mistaken for bands, for all meshes with more than one point (C133_squeeze_violated). Names of files and values beyond rational numbers not modelled."
  },
  {
   "property": "C134",
   "status": "partial",
   "theorems": [
    "Verif.MD.C134_partial",
    "Verif.MD.C134_conserved",
    "Verif.MD.C134_total",
    "Verif.MD.C134_stateless",
    "Verif.MD.C134_violated",
    "Verif.MD.C134_random",
    "Verif.MD.C134_random_violated"
   ],
   "note": "C134_partial, C134_conserved, C134_total require acoustic sum rules (force constants, coupling); the first two also electronic states that can be chosen as differentiable functions along the path, which is not needed for smearing with a positive, continuous delta function (C185_call, C185_conserved); C134_stateless holds in general. Without acoustic sum rule, the forces are not minus the derivative of the energy (C134_violated). Random displacements have no collective component and are bounded by twice the amplitude given (C134_random), but can exceed the amplitude itself (C134_random_violated)."
  },
  {
   "property": "C135",
   "status": "partial",
   "theorems": [
    "Verif.MD.C135_partial",
    "Verif.MD.C135_sparse_violated",
    "Verif.MD.C135_failure_violated",
    "Verif.MD.C135_photo_violated",
    "Verif.MD.C135_independent_violated"
   ],
   "note": "C135_partial: holds for dense models and for drivers initialized with the option supercell. Drivers for sparse supercell models can never be saved (C135_sparse_violated); a failed attempt removes the communicators (C135_failure_violated); with photoexcitation, the distance of chemical potentials is an attribute of the occupation function, which is neither saved (C135_photo_violated) nor separate for each driver (C135_independent_violated). pickle is external."
  },
  {
   "property": "C136",
   "status": "partial",
   "theorems": [
    "Verif.Coupling.C136_partial",
    "Verif.Coupling.C136_complete",
    "Verif.Coupling.C136_offset_violated",
    "Verif.Coupling.C136_alias_violated"
   ],
   "note": "C136_partial, C136_complete: holds if no band below the selected range is listed, or if at most as many bands as selected are below and the lines are in the usual order and complete. A file with a band further below cannot be read (C136_offset_violated, IndexError); a band just below the selected range appears as highest selected band unless overwritten later (C136_alias_violated). complete_k is not included here (see C63)."
  },
  {
   "property": "C137",
   "status": "partial",
   "theorems": [
    "Verif.Epw.C137_partial",
    "Verif.Epw.C137_duplicate_violated",
    "Verif.Epw.C137_range_violated",
    "Verif.Epw.C137_prtgkk",
    "Verif.Epw.C137_L"
   ],
   "note": "C137_partial, C137_prtgkk, C137_L. q points listed more than once are NaN except for the first time (C137_duplicate_violated), and so are q points given as equivalent points outside 0 to nq - 1 (C137_range_violated), both for all outputs."
  },
  {
   "property": "C138",
   "status": "partial",
   "theorems": [
    "Verif.ElInit.C138_distances",
    "Verif.ElInit.C138_mesh",
    "Verif.ElInit.C138_hermitian",
    "Verif.ElInit.C138_nk_partial",
    "Verif.ElInit.C138_nk_violated",
    "Verif.ElInit.C138_respack",
    "Verif.ElInit.C138_respack_violated"
   ],
   "note": "C138_distances, C138_mesh, C138_hermitian, C138_respack. The guessed shape of the k mesh is right for even numbers only (C138_nk_partial) and wrong for all odd numbers (C138_nk_violated; documented as guess). With the default mesh, RESPACK data for two-dimensional systems cannot be read (C138_respack_violated). Wannier functions (read_xsf) are not modelled."
  },
  {
   "property": "C139",
   "status": "proved",
   "theorems": [
    "Verif.AtomicProj.C139_new",
    "Verif.AtomicProj.C139_old",
    "Verif.AtomicProj.C139_order",
    "Verif.AtomicProj.C139_order_old",
    "Verif.AtomicProj.C139_path"
   ],
   "note": "C139_new, C139_old, C139_order, C139_order_old, C139_path. The permutation by band_order is arbitrary. Numbers in files are rational."
  },
  {
   "property": "C140",
   "status": "partial",
   "theorems": [
    "Verif.Readers.C140_bands",
    "Verif.Readers.C140_bands_violated",
    "Verif.Readers.C140_points",
    "Verif.Readers.C140_eig",
    "Verif.Readers.C140_decay",
    "Verif.Readers.C140_energies"
   ],
   "note": "C140_points, C140_eig, C140_decay, C140_energies, and C140_bands except for a single band at a single point, which can never be read (C140_bands_violated)."
  },
  {
   "property": "C141",
   "status": "partial",
   "theorems": [
    "Verif.Readers.C141_partial",
    "Verif.Readers.C141_complex_violated",
    "Verif.Readers.C141_number_violated"
   ],
   "note": "C141_partial for real patterns. The imaginary part is always dropped without notice (C141_complex_violated); if the number of representations is too small, the upper left part is returned (C141_number_violated; only a message is printed)."
  },
  {
   "property": "C142",
   "status": "partial",
   "theorems": [
    "Verif.Fourier.C142_k2r",
    "Verif.Fourier.C142_elel",
    "Verif.Fourier.C142_ph",
    "Verif.Fourier.C142_elph",
    "Verif.Models.Chain.C142_chain",
    "Verif.Models.Graphene.C142_graphene_el",
    "Verif.Models.Graphene.C142_graphene_elel",
    "Verif.Models.Graphene.C142_graphene_elph",
    "Verif.Models.Graphene.C142_graphene_ph_partial",
    "Verif.Models.Graphene.C142_graphene_ph_violated",
    "Verif.Models.TaS2.C142_tas2_el",
    "Verif.Models.TaS2.C142_tas2_elph",
    "Verif.Models.TaS2.C142_tas2_ph"
   ],
   "note": "C142_k2r, C142_elel, C142_ph, C142_elph in general; C142_chain, C142_graphene_el, C142_graphene_elel, C142_graphene_elph, C142_tas2_el, C142_tas2_ph, C142_tas2_elph for the created models. The dynamical matrix of the created graphene model is that of the model function at the opposite wave vector (C142_graphene_ph_partial), which is not the same (C142_graphene_ph_violated for all spring constants with nonzero out-of-plane component). Without threshold (see C41_eps for its effect)."
  },
  {
   "property": "C143",
   "status": "partial",
   "theorems": [
    "Verif.Phon.Init.C143_mesh",
    "Verif.Phon.Init.C143_missing",
    "Verif.Phon.Init.C143_incomplete_violated",
    "Verif.Phon.Init.C143_long_range"
   ],
   "note": "C143_mesh, C143_long_range, C143_missing; C143_incomplete_violated: for each set of files that lacks a point of the mesh and its opposite, any real matrix may result there, without an error. Files as read (see C113); no sum rules."
  },
  {
   "property": "C144",
   "status": "partial",
   "theorems": [
    "Verif.ElEl.Init.C144_orbital",
    "Verif.ElEl.Init.C144_density",
    "Verif.ElEl.Init.C144_unset",
    "Verif.ElEl.Init.C144_zero_violated",
    "Verif.ElEl.Init.C144_local",
    "Verif.ElEl.Init.C144_init",
    "Verif.ElEl.Init.C144_bare",
    "Verif.ElEl.Init.C144_wmat_direct",
    "Verif.ElEl.Init.C144_wmat_partial",
    "Verif.ElEl.Init.C144_wmat_violated"
   ],
   "note": "C144_orbital, C144_density, C144_local, C144_unset, C144_init, C144_bare, C144_wmat_direct; C144_wmat_partial with a mesh for inequivalent lattice vectors; C144_wmat_violated: of matrices for equivalent lattice vectors, which occur in files written by to_Wmat, only the last one is used; C144_zero_violated: orbital index zero is taken for the last orbital."
  },
  {
   "property": "C145",
   "status": "partial",
   "theorems": [
    "Verif.Phon.Decay.C145_ph",
    "Verif.Phon.Decay.C145_standardize_violated",
    "Verif.Phon.Decay.C145_epmate",
    "Verif.Phon.Decay.C145_epmatp",
    "Verif.Phon.Decay.C145_decayH"
   ],
   "note": "C145_ph, C145_epmate, C145_epmatp, C145_decayH; C145_standardize_violated: lengths are not updated by standardize. Norms are of matrices as stored (divided by masses if requested)."
  },
  {
   "property": "C146",
   "status": "partial",
   "theorems": [
    "Verif.Phon.ToPwi.C146_species",
    "Verif.Phon.ToPwi.C146_set",
    "Verif.Phon.ToPwi.C146_structure",
    "Verif.Phon.ToPwi.C146_mass_partial",
    "Verif.Phon.ToPwi.C146_mass_violated",
    "Verif.Phon.ToPwi.C146_md"
   ],
   "note": "C146_species, C146_set, C146_structure, C146_md; C146_mass_partial for atoms of the same name with the same mass; C146_mass_violated: for isotopes with the same name, the mass of the first is written for all. Text of the file: C122."
  },
  {
   "property": "C147",
   "status": "proved",
   "theorems": [
    "Verif.Ph2epw.C147_copied",
    "Verif.Ph2epw.C147_exists",
    "Verif.Ph2epw.C147_env",
    "Verif.Ph2epw.C147_ambiguous"
   ],
   "note": "C147_copied, C147_exists, C147_env, C147_ambiguous. Missing potentials and files after a gap are skipped without warning; a run that was interrupted cannot be resumed (C147_exists). No links; meta data not modelled; one process."
  },
  {
   "property": "C148",
   "status": "partial",
   "theorems": [
    "Verif.Poscar.C148_poscar_partial",
    "Verif.Poscar.C148_poscar_scale_violated",
    "Verif.Poscar.C148_poscar_direct_violated",
    "Verif.Poscar.C148_poscar_repeat_violated",
    "Verif.Poscar.C148_density_partial",
    "Verif.Poscar.C148_density_rows_violated",
    "Verif.Poscar.C148_density_cubic_violated",
    "Verif.Poscar.C148_density_orthorhombic_violated"
   ],
   "note": "C148_poscar_partial for scaling factor one, selective dynamics and distinct names; C148_poscar_scale_violated: the scaling factor is ignored; C148_poscar_direct_violated: files without selective dynamics are not read; C148_poscar_repeat_violated: atoms of repeated elements are lost; C148_density_partial for hexagonal, tetragonal and face-centered cubic lattices and a multiple of five points; C148_density_rows_violated: other numbers of points are not read; C148_density_cubic_violated: the charge is always zero for simple cubic lattices; C148_density_orthorhombic_violated: b/a is ignored."
  },
  {
   "property": "C149",
   "status": "proved",
   "theorems": [
    "Verif.FlfrcXml.C149_ifc",
    "Verif.FlfrcXml.C149_dyn",
    "Verif.FlfrcXml.C149_missing"
   ],
   "note": "C149_ifc, C149_dyn; C149_missing: the section with dielectric properties is mandatory. Effective charges are returned in the order of the file, unlike force constants, which are transposed. XML parser and repair of closing tags not modelled."
  },
  {
   "property": "C150",
   "status": "partial",
   "theorems": [
    "Verif.Wannier.C150_grid",
    "Verif.Wannier.C150_voxel_violated",
    "Verif.Wannier.C150_order",
    "Verif.Wannier.C150_missing",
    "Verif.Wannier.C150_buffer",
    "Verif.Wannier.C150_buffer_violated",
    "Verif.Xsf.C150_header",
    "Verif.Xsf.C150_numbers_partial",
    "Verif.Xsf.C150_exponent_violated"
   ],
   "note": "C150_header, C150_grid, C150_order, C150_missing, C150_buffer. C150_numbers_partial: exponents with at most two digits; C150_exponent_violated: negative numbers with larger exponents make files unreadable. C150_voxel_violated: dV (voxel volume belonging to r) is smaller than the volume between neighboring points of r for every grid. C150_buffer_violated: functions buffered without normalization are not normalized on request."
  },
  {
   "property": "C151",
   "status": "partial",
   "theorems": [
    "Verif.Phon.Interpolate.C151_result",
    "Verif.Phon.Interpolate.C151_files",
    "Verif.Phon.Interpolate.C151_progress",
    "Verif.Phon.Interpolate.C151_clean_violated",
    "Verif.Phon.Interpolate.C151_list_violated",
    "Verif.Phon.Interpolate.C151_q",
    "Verif.Phon.Interpolate.C151_unit_violated",
    "Verif.Phon.Interpolate.C151_mass",
    "Verif.Phon.Interpolate.C151_gamma"
   ],
   "note": "Processes: C151_result, C151_files, C151_progress if the list of q points in line 2070 can be multiplied with a floating-point number; NumPy raises a TypeError instead, so that the function never returns (C151_list_violated; parameter of the model). Contents: C151_q, C151_mass, C151_gamma. Violated: clean removes a fildyn0 provided by the user (C151_clean_violated), and the q points in fildyn0 are in 1/bohr instead of 2 pi / alat (C151_unit_violated). External programs are arbitrary functions."
  },
  {
   "property": "C152",
   "status": "proved",
   "theorems": [
    "Verif.Diag.Derivatives.C152_first",
    "Verif.Diag.Derivatives.C152_second",
    "Verif.Diag.Derivatives.C152_third",
    "Verif.Diag.Derivatives.C152_expansion",
    "Verif.Diag.Derivatives.C152_expansion_fermi"
   ],
   "note": "Exact arithmetic, eps = 0, smearings with continuous second derivative, Fermi-Dirac in the range where the argument is not clipped. No analyticity of eigenvectors is assumed."
  },
  {
   "property": "C153",
   "status": "partial",
   "theorems": [
    "Verif.Diag.Derivatives.C153_self_energy",
    "Verif.Diag.Derivatives.C153_dynamic",
    "Verif.Diag.Derivatives.C153_polarization",
    "Verif.Diag.Derivatives.C153_triangle",
    "Verif.Diag.Derivatives.C153_first",
    "Verif.Diag.Derivatives.C153_fermi_shift",
    "Verif.Diag.Derivatives.C153_fermi_average",
    "Verif.Diag.Derivatives.C153_squared",
    "Verif.Diag.Derivatives.C153_contact_violated"
   ],
   "note": "Proved without the contact interaction (U = 0 in phonon_self_energy). With U, the vertices are summed before multiplication, whereby the result depends on the phases already for one band and two k points (C153_contact_violated)."
  },
  {
   "property": "C154",
   "status": "proved",
   "theorems": [
    "Verif.Diag.Derivatives.C154_self_energy",
    "Verif.Diag.Derivatives.C154_dynamic",
    "Verif.Diag.Derivatives.C154_fermi_shift",
    "Verif.Diag.Derivatives.C154_potential",
    "Verif.Diag.Derivatives.C154_first",
    "Verif.Diag.Derivatives.C154_commute",
    "Verif.Diag.Derivatives.C154_folds"
   ],
   "note": "Exact arithmetic, U = 0 in phonon_self_energy, no long-range terms, dynamical matrices on the mesh (the real-space data follow with ph.q2r). C154_folds shows that diagonal supercells meet the assumption about meshes."
  },
  {
   "property": "C155",
   "status": "proved",
   "theorems": [
    "Verif.MD.Repeat.C155_hamiltonian",
    "Verif.MD.Repeat.C155_level",
    "Verif.MD.Repeat.C155_free_energy",
    "Verif.MD.Repeat.C155_forces",
    "Verif.MD.Repeat.C155_hessian",
    "Verif.MD.Repeat.C155_hessian_unique",
    "Verif.MD.Repeat.C155_init",
    "Verif.MD.Repeat.C155_unscreen"
   ],
   "note": "Exact arithmetic. Chemical potential: for strictly decreasing occupation functions (C155_level); the other statements hold whenever the chemical potentials agree. ph.q2r enters via its exactness on the mesh (C28). The code uses sparse matrices for the supercell, see C55 and C156 for the equivalence with dense ones."
  },
  {
   "property": "C156",
   "status": "proved",
   "theorems": [
    "Verif.MD.Repeat.C156_superconductivity",
    "Verif.MD.Repeat.C156_modes",
    "Verif.MD.Repeat.C156_minimum",
    "Verif.MD.C156_sparse"
   ],
   "note": "Exact arithmetic; np.linalg.eigh is represented by arbitrary orthonormal eigenvectors. All four results, including the minimum phonon energy (C156_minimum) and any sum over modes (C156_modes)."
  },
  {
   "property": "C157",
   "status": "partial",
   "theorems": [
    "Verif.Phon.Screened.C157_screened",
    "Verif.Phon.Super.C157_folding",
    "Verif.Phon.Super.C157_folding_elph",
    "Verif.Phon.Super.C157_dynamical_matrix",
    "Verif.Phon.Super.C157_modes",
    "Verif.Phon.Super.C157_orthogonal",
    "Verif.Phon.Super.C157_violated"
   ],
   "note": "Proved if no reciprocal lattice vector below the cutoff is missed for unit cell and supercell, in particular for multiples of primitive vectors if these are orthogonal (C157_orthogonal) or the dielectric constant is large enough (C157_screened, e.g., hexagonal and cubic lattices, see C80). C157_violated: for skewed cells, vectors are missed (C80) and already a change of the primitive vectors changes the dynamical matrix."
  },
  {
   "property": "C158",
   "status": "partial",
   "theorems": [
    "Verif.ElPh.Super.C158_processes",
    "Verif.ElPh.Super.C158_sparse",
    "Verif.ElPh.Super.C158_sparse_violated",
    "Verif.ElPh.Super.C158_folding",
    "Verif.ElPh.Super.C158_violated",
    "Verif.ElPh.Super.C158_violated_example",
    "Verif.ElPh.Super.C158_sparse_violated_example"
   ],
   "note": "Proved without long-range terms for any number of processes (C158_processes, C158_sparse). C158_sparse_violated: with sparse=True and P processes, the long-range part is contained P times. C158_violated: with sparse=False, the long-range part lacks the phase of the cell of the orbital, so that the folding is correct if and only if this phase is one (or there is no long-range coupling)."
  },
  {
   "property": "C159",
   "status": "proved",
   "theorems": [
    "Verif.Plot.C159_plot",
    "Verif.Plot.C159_point",
    "Verif.Plot.C159_double",
    "Verif.Plot.C159_outline"
   ],
   "note": "Exact arithmetic; angles 60, 90, 120; points in the middle between several q points may be assigned to any of the closest ones."
  },
  {
   "property": "C160",
   "status": "partial",
   "theorems": [
    "Verif.Plot.C160_bar_partial",
    "Verif.Plot.C160_range_partial",
    "Verif.Plot.C160_bottom_violated",
    "Verif.Plot.C160_top_violated",
    "Verif.Plot.C160_left_violated"
   ],
   "note": "Proved for rectangles at least one half pixel above the lower edge, higher than one pixel and not exceeding the upper edge. C160_bottom_violated: for bottom=0, an IndexError is raised for all images. C160_top_violated: rectangles exceeding the upper edge continue at the lower edge. C160_left_violated: rectangles exceeding the left edge are not drawn at all."
  },
  {
   "property": "C161",
   "status": "partial",
   "theorems": [
    "Verif.MPI.Coll.C161_script",
    "Verif.MPI.Coll.C161_script_ends",
    "Verif.MPI.Coll.C161_info_waits",
    "Verif.MPI.Coll.C161_load_shared",
    "Verif.MPI.Coll.C161_ph",
    "Verif.MPI.Coll.C161_broken_violated",
    "Verif.MPI.Coll.C161_lattice_violated",
    "Verif.MPI.Coll.C161_lattice_serial",
    "Verif.MPI.Coll.C161_sub_violated",
    "Verif.MPI.Coll.C161_derived_violated"
   ],
   "note": "Proved for readable and missing files, from a general theorem: processes that agree on the sequence of collective operations never block. C161_broken_violated: for damaged files, all processes but the first wait forever. C161_lattice_violated: force constants with unknown ibrav block all processes without error message. C161_sub_violated: SharedArray.Bcast on sub-communicators never returns. C161_derived_violated: Bcast of arrays calculated from shared arrays does not change the data on most processes."
  },
  {
   "property": "C162",
   "status": "proved",
   "theorems": [
    "Verif.TB.C162_unfolds",
    "Verif.TB.C162_spectrum",
    "Verif.TB.C162_spectrum_ph",
    "Verif.TB.C162_levels",
    "Verif.TB.C162_sum",
    "Verif.TB.C162_nested"
   ],
   "note": "Data of el and ph (without long-range terms, for which see C158); exact arithmetic; slices are given by membership of indices; orders of wrong length not modelled."
  },
  {
   "property": "C163",
   "status": "proved",
   "theorems": [
    "Verif.ElPh.Par.C163_results",
    "Verif.ElPh.Par.C163_ends",
    "Verif.ElPh.Par.C163_bands"
   ],
   "note": "Exact arithmetic; Reduce, Allreduce, Bcast, Gatherv, gather, allreduce as functions of the contributions; processes may or may not wait for contributions they do not need (wait, Sem.Sound). C163_results: results; C163_ends: no blocking; C163_bands: band basis. shared_memory=True is not included (see C61)."
  },
  {
   "property": "C164",
   "status": "partial",
   "theorems": [
    "Verif.Phon.Screened.C164_screened",
    "Verif.Phon.Seq.C164_attributes",
    "Verif.Phon.Seq.C164_spectrum",
    "Verif.Phon.Seq.C164_modes",
    "Verif.Phon.Seq.C164_orthogonal",
    "Verif.Phon.Seq.C164_cutoff_violated"
   ],
   "note": "C164_attributes, C164_spectrum, C164_modes, C164_orthogonal, C164_screened: proved for the default cutoff; for skew cells, assuming that no reciprocal lattice vector below the cutoff is missed, which holds for large enough dielectric constants (see C80). C164_cutoff_violated: order_atoms (and supercell) call prepare_long_range() with default arguments, so that another cutoff is lost and the dynamical matrix changes. Exact arithmetic. The truncated long-range terms are not exactly periodic in the wave vector, so that for supercells the modes are considered at the folded wave vector without reduction."
  },
  {
   "property": "C165",
   "status": "partial",
   "theorems": [
    "Verif.Phon.Alias.C165_independent",
    "Verif.Phon.Alias.C165_others",
    "Verif.Phon.Alias.C165_unit_violated",
    "Verif.Phon.Alias.C165_ranks_violated"
   ],
   "note": "C165_independent, C165_others: proved for all programs that do not move atoms of a model whose positions are shared (after unit_cell, copy.copy, or Model(tau=...)) and have not been renewed by order_atoms. C165_unit_violated: unit_cell returns views of r, and shift_atoms works in place, so that the atoms of the supercell are moved, too. C165_ranks_violated: positions passed to Model(tau=...) are changed on the first process only. The values computed by the methods are arbitrary functions; only sharing and writing in place are modelled. comm.bcast is assumed to return the same object on the root."
  },
  {
   "property": "C166",
   "status": "partial",
   "theorems": [
    "Verif.MD.Translation.C166_supercell",
    "Verif.MD.Translation.C166_springs",
    "Verif.MD.Translation.C166_simulation",
    "Verif.MD.Translation.C166_gradient",
    "Verif.MD.Translation.C166_models",
    "Verif.MD.Translation.C166_hermitian",
    "Verif.MD.Translation.C166_idempotent",
    "Verif.MD.Translation.C166_long_range",
    "Verif.MD.Translation.C166_long_range_violated"
   ],
   "note": "C166_simulation and C166_models: invariance of the simulation for all models whose sum rules have been applied, even with long-range coupling, which shifts all energies at most. C166_supercell and C166_springs: sum rules carry over to supercells. C166_hermitian, C166_idempotent: asr preserves Hermiticity and does not change couplings that fulfill the sum rule. C166_long_range: coupling after asr with long-range terms. C166_long_range_violated: contrary to the documentation, asr does not suppress all coupling to collective displacements if there are long-range terms, even if Born charges add up to zero. Exact arithmetic. C166_gradient: the forces returned by the simulation are minus the derivative of the returned energy for all models with sum rules."
  },
  {
   "property": "C167",
   "status": "partial",
   "theorems": [
    "Verif.MD.Optimize.C167_params",
    "Verif.MD.Optimize.C167_free_energy",
    "Verif.MD.Optimize.C167_query",
    "Verif.MD.Optimize.C167_copies",
    "Verif.MD.Optimize.C167_inplace",
    "Verif.MD.Optimize.C167_stale",
    "Verif.MD.Optimize.C167_processes",
    "Verif.MD.Optimize.C167_gradient",
    "Verif.MD.Optimize.C167_stale_violated",
    "Verif.MD.Optimize.C167_processes_violated"
   ],
   "note": "C167_copies and C167_inplace: every optimization routine which calls free_energy before jacobian obtains exactly the results for a pure function, for all strategies and histories; C167_gradient: the forces are its derivative if sum rules have been applied; C167_free_energy, C167_query and C167_params: energies, forces and force constants after arbitrary harmless calls; C167_processes: the same results on all processes if no arrays are shared. Not true in general: C167_stale and C167_stale_violated (after random_displacements or from_xyz, jacobian combines the springs of the new with the electrons of the old displacements until diagonalize or free_energy is called), C167_processes_violated (an array handed over to free_energy is overwritten by random_displacements on all but the first process). The chemical potential is taken as a function of the energies, independent of the initial guess; dense matrices; Hessian at q = 0."
  },
  {
   "property": "C168",
   "status": "proved",
   "theorems": [
    "Verif.Diag.Screening.C168_interaction",
    "Verif.Diag.Screening.C168_coupling",
    "Verif.Diag.Screening.C168_phonons",
    "Verif.Diag.Screening.C168_bounds"
   ],
   "note": "C168_interaction, C168_coupling, C168_phonons, C168_bounds; density-density interactions; static; no contact interaction"
  },
  {
   "property": "C169",
   "status": "proved",
   "theorems": [
    "Verif.MD.Tolerance.C169_derivative",
    "Verif.MD.Tolerance.C169_history",
    "Verif.MD.Tolerance.C169_exact",
    "Verif.MD.Tolerance.C169_kept",
    "Verif.MD.Tolerance.C169_gauss",
    "Verif.MD.Tolerance.C169_depends"
   ],
   "note": "C169_derivative, C169_history, C169_exact, C169_kept, C169_gauss, C169_depends; not two_fermi_dirac; dense matrices; exact arithmetic. C169_depends shows that the dependence on the history is real for every system and tolerance"
  },
  {
   "property": "C170",
   "status": "partial",
   "theorems": [
    "Verif.ElPh.C170_coupling_partial",
    "Verif.ElPh.C170_coupling_violated",
    "Verif.ElPh.C170_standardize_coupling",
    "Verif.TB.Empty.C170_sequence_partial",
    "Verif.TB.Empty.C170_clear",
    "Verif.TB.Empty.C170_standardize_violated",
    "Verif.TB.Empty.C170_shift_violated",
    "Verif.TB.Empty.C170_stuck_violated",
    "Verif.TB.Empty.C170_threshold_violated",
    "Verif.TB.Empty.C170_supercell",
    "Verif.TB.Empty.C170_elel_supercell_violated",
    "Verif.TB.Empty.C170_unit_cell_violated"
   ],
   "note": "C170_sequence_partial (all sequences of calls if the Bloch matrix does not vanish), C170_clear, C170_supercell, C170_coupling_partial, C170_standardize_coupling hold. Violated: standardize and shift of vanishing models, unit_cell, and elel.Model.supercell leave one-dimensional arrays on the first process only (C170_standardize_violated, C170_shift_violated, C170_unit_cell_violated, C170_elel_supercell_violated), which no sequence of the methods repairs (C170_stuck_violated); threshold for empty models (C170_threshold_violated); elph.Model.g with long-range terms fails after clear (C170_coupling_violated)"
  },
  {
   "property": "C171",
   "status": "partial",
   "theorems": [
    "Verif.Fourier.C171_k2r_hermitian_partial",
    "Verif.Fourier.C171_elel_hermitian_partial",
    "Verif.Fourier.C171_ph_hermitian_partial",
    "Verif.Fourier.C171_k2r_time_reversal",
    "Verif.Fourier.C171_elel_time_reversal",
    "Verif.Fourier.C171_ph_time_reversal",
    "Verif.Fourier.C171_k2r_space_group_partial",
    "Verif.Fourier.C171_elel_space_group_partial",
    "Verif.Fourier.C171_ph_space_group_partial",
    "Verif.Fourier.C171_hermitian_violated",
    "Verif.Fourier.C171_elph_hermitian_violated",
    "Verif.Fourier.C171_elph_time_reversal",
    "Verif.Fourier.C171_elph_space_group_partial"
   ],
   "note": "Time reversal is always inherited (C171_k2r_time_reversal, C171_elel_time_reversal, C171_ph_time_reversal, C171_elph_time_reversal). Hermiticity (C171_k2r_hermitian_partial, C171_elel_hermitian_partial, C171_ph_hermitian_partial) and space-group operations (C171_k2r_space_group_partial, C171_elel_space_group_partial, C171_ph_space_group_partial, C171_elph_space_group_partial) are inherited if the images of shortest bonds are within the range searched by wigner. This range is asymmetric, so that Hermiticity is lost for orbitals two unit cells apart (C171_hermitian_violated). Hermiticity of the electron-phonon coupling is not inherited even for a single orbital and atom (C171_elph_hermitian_violated)"
  },
  {
   "property": "C172",
   "status": "partial",
   "theorems": [
    "Verif.Phon.C172_correction_partial",
    "Verif.Phon.C172_invariant_partial",
    "Verif.Phon.C172_simple",
    "Verif.Phon.C172_simple_reciprocal_partial",
    "Verif.Phon.C172_simple_hermitian_violated",
    "Verif.Phon.C172_correction_violated"
   ],
   "note": "C172_simple: the simple correction commutes with all operations. C172_correction_partial, C172_invariant_partial: the minimal correction commutes with all operations under which the list of lattice vectors is closed, for exact arithmetic and a threshold that removes redundant constraints only. Otherwise, it breaks symmetries as announced by the warning in the code: C172_correction_violated. The simple correction preserves the independence of the order of atoms if the force constants between an atom and all others sum to a symmetric matrix (C172_simple_reciprocal_partial), but not always: C172_simple_hermitian_violated. For the minimal correction, see C74_reciprocal"
  },
  {
   "property": "C173",
   "status": "partial",
   "theorems": [
    "Verif.Phon.Splitting.C173_direction",
    "Verif.Phon.Splitting.C173_raise",
    "Verif.Phon.Splitting.C173_direction_violated",
    "Verif.Phon.Splitting.C173_splitting",
    "Verif.Phon.Splitting.C173_tolerance",
    "Verif.Phon.Splitting.C173_acoustic",
    "Verif.Phon.Splitting.C173_plane"
   ],
   "note": "C173_splitting (how close is independent of the tolerance), C173_direction, C173_raise, C173_acoustic, and C173_plane. With the default tolerance, there is a region around the center in which the nonanalytic term is left out and dynamical matrices are continuous (C173_tolerance); thus the limit at the center itself is not the expected one (C173_direction_violated). Assumes that no nonzero reciprocal lattice vector is as short as the tolerance. In two dimensions, assumes a nonnegative polarizability and no pole of the out-of-plane response at reciprocal lattice vectors"
  },
  {
   "property": "C174",
   "status": "proved",
   "theorems": [
    "Verif.Bands.C174_standardize",
    "Verif.Bands.C174_frequencies",
    "Verif.Bands.C174_file",
    "Verif.Bands.C174_lipschitz",
    "Verif.Bands.C174_level",
    "Verif.Bands.C174_matrix"
   ],
   "note": "C174_matrix, C174_standardize, C174_frequencies, C174_file (for files that can be read, see C48), C174_lipschitz, C174_level. numpy.linalg.eigvalsh is assumed to return the ascending eigenvalues of the Hermitian matrix given by the lower triangle; C174_level is for exact chemical potentials, see C169 for the tolerance"
  },
  {
   "property": "C175",
   "status": "partial",
   "theorems": [
    "Verif.ElPh.Froehlich.C175_bulk",
    "Verif.ElPh.Froehlich.C175_plane",
    "Verif.ElPh.Froehlich.C175_diverges",
    "Verif.ElPh.Froehlich.C175_jump",
    "Verif.ElPh.Froehlich.C175_tolerance",
    "Verif.ElPh.Froehlich.C175_diverges_violated"
   ],
   "note": "C175_bulk, C175_plane, C175_diverges, C175_jump, C175_tolerance. For the default tolerance of generate_long_range, which cannot be changed by the user of g_lr, the coupling is continuous at the center of the Brillouin zone and does not diverge (C175_diverges_violated): the Froehlich term is left out if K.eps.K <= 1e-10, cf. C173. In two dimensions, the polarizability is assumed not to be negative"
  },
  {
   "property": "C176",
   "status": "proved",
   "theorems": [
    "Verif.Diag.Symm.C176_self_energy",
    "Verif.Diag.Symm.C176_dynamic",
    "Verif.Diag.Symm.C176_frequencies",
    "Verif.Diag.Symm.C176_fermi_average",
    "Verif.Diag.Symm.C176_polarization",
    "Verif.Diag.Symm.C176_triangle",
    "Verif.Diag.Symm.C176_first",
    "Verif.Diag.Symm.C176_equilibrium",
    "Verif.Diag.Symm.C176_fermi_shift",
    "Verif.Diag.Symm.C176_antiunitary",
    "Verif.Diag.Symm.C176_susceptibility"
   ],
   "note": "C176_self_energy, C176_dynamic, C176_frequencies, C176_fermi_average, C176_polarization, C176_triangle, C176_first, C176_equilibrium, C176_fermi_shift, C176_antiunitary, C176_susceptibility. Without contact term U, which is not symmetric (C153_contact_violated), and without the options that select bands. Which interpolated models have the symmetry in question is the subject of C171"
  },
  {
   "property": "C177",
   "status": "partial",
   "theorems": [
    "Verif.Mesh.C177_found",
    "Verif.Mesh.C177_sound",
    "Verif.Mesh.C177_names",
    "Verif.Mesh.C177_permutation",
    "Verif.Mesh.C177_compose",
    "Verif.Mesh.C177_inverse",
    "Verif.Mesh.C177_group",
    "Verif.Mesh.C177_unity",
    "Verif.Mesh.C177_multiplicity",
    "Verif.Mesh.C177_tolerance_violated",
    "Verif.Mesh.C177_missing_violated",
    "Verif.Mesh.C177_angle_violated"
   ],
   "note": "C177_found, C177_sound, C177_names, C177_permutation, C177_compose, C177_inverse, C177_group, C177_unity, C177_multiplicity. With tolerance, results do not form a group (C177_tolerance_violated), only within the sum of tolerances (C177_compose). For incomplete data, as in complete, a symmetry can be found and used that no completion of the data has (C177_missing_violated). For other angles, which can be passed, the maps tested are not even permutations (C177_angle_violated). Cartesian arithmetic with exact numbers, see C21_cartesian"
  },
  {
   "property": "C178",
   "status": "partial",
   "theorems": [
    "Verif.Bands.Unfold.C178_spectrum",
    "Verif.Bands.Unfold.C178_multiplicity",
    "Verif.Bands.Unfold.C178_energies",
    "Verif.Bands.Unfold.C178_spectrum_ph",
    "Verif.Bands.Unfold.C178_distorted",
    "Verif.Bands.Unfold.C178_complete",
    "Verif.Bands.Unfold.C178_diagonalization",
    "Verif.Bands.Unfold.C178_diagonalization_ph",
    "Verif.Bands.Unfold.C178_subset_violated"
   ],
   "note": "Proved for electrons and phonons in the perfect supercell, with a bound for distorted ones, and the completeness of weights. C178_subset_violated: if only some bands of the unit cell are given, weights are wrongly normalized, since the number of cells is taken from the ratio of the numbers of bands."
  },
  {
   "property": "C179",
   "status": "partial",
   "theorems": [
    "Verif.ElInit.Save.C179_restored",
    "Verif.ElInit.Save.C179_stable",
    "Verif.ElInit.Save.C179_wsvec_violated",
    "Verif.ElInit.Save.C179_dimer_violated"
   ],
   "note": "C179_restored and C179_stable for files without a *_wsvec.dat file. C179_wsvec_violated: such a file with the same prefix is taken into account again, where loading fails with a KeyError for all models with lattice vectors not listed there; C179_dimer_violated gives a model that has been set up from such files and cannot be loaded after saving it with the same prefix."
  },
  {
   "property": "C180",
   "status": "partial",
   "theorems": [
    "Verif.Diag.C180_small",
    "Verif.Diag.C180_intraband",
    "Verif.Diag.C180_large",
    "Verif.Diag.C180_causal",
    "Verif.Diag.C180_imaginary",
    "Verif.Diag.C180_damping_average",
    "Verif.Diag.C180_damping",
    "Verif.Diag.C180_static",
    "Verif.Diag.C180_several",
    "Verif.Diag.C180_zero_violated"
   ],
   "note": "Limits, causality, monotonicity and damping proved (exact arithmetic, no contact interaction, one coupling on both sides). C180_zero_violated: zero as an element of an array of frequencies with a nonzero element is not treated as the frequency zero alone; eps has no effect and the contributions within a band are undefined (0/0) at q = 0."
  },
  {
   "property": "C181",
   "status": "proved",
   "theorems": [
    "Verif.MD.C181_forces",
    "Verif.MD.C181_preserved",
    "Verif.MD.C181_hessian",
    "Verif.MD.C181_init"
   ],
   "note": "Exact arithmetic; dense matrices; gamma_only Hessian; unitary operations."
  },
  {
   "property": "C182",
   "status": "proved",
   "theorems": [
    "Verif.MD.Bounds.C182_tangent",
    "Verif.MD.Bounds.C182_unstable",
    "Verif.MD.Bounds.C182_descent",
    "Verif.MD.Bounds.C182_relax",
    "Verif.MD.Bounds.C182_stationary",
    "Verif.MD.Bounds.C182_continuous",
    "Verif.MD.Bounds.C182_minimum",
    "Verif.MD.Bounds.C182_hessian",
    "Verif.MD.Bounds.C182_reference",
    "Verif.MD.Bounds.C182_unscreen",
    "Verif.MD.Bounds.C182_relaxed"
   ],
   "note": "Exact arithmetic; dense matrices. The Fermi-Dirac functions of the code are those of the theorem for arguments up to 709 only (see C81)."
  },
  {
   "property": "C183",
   "status": "partial",
   "theorems": [
    "Verif.Phon.BornHuang.C183_born_huang",
    "Verif.Phon.BornHuang.C183_cell",
    "Verif.Phon.BornHuang.C183_monatomic",
    "Verif.Phon.BornHuang.C183_cell_corrected",
    "Verif.Phon.BornHuang.C183_invariant_violated",
    "Verif.Phon.BornHuang.C183_force_violated"
   ],
   "note": "Violated for two or more bonds sharing an atom (C183_invariant_violated, C183_force_violated). The positive theorems hold without restriction; those for corrected force constants are for eps = 0."
  },
  {
   "property": "C184",
   "status": "proved",
   "theorems": [
    "Verif.Phon.Acoustic.C184_stable",
    "Verif.Phon.Acoustic.C184_sound",
    "Verif.Phon.Acoustic.C184_rotation",
    "Verif.Phon.Acoustic.C184_corrected",
    "Verif.Phon.Acoustic.C184_gamma",
    "Verif.Phon.Acoustic.C184_acoustic_only"
   ],
   "note": "Without long-range terms (lr), for which frequencies at the center depend on direction (see C173). The sum rules are assumed to hold exactly (eps = 0 for corrected force constants)."
  },
  {
   "property": "C185",
   "status": "proved",
   "theorems": [
    "Verif.MD.Differentiable.C185_gradient",
    "Verif.MD.Differentiable.C185_hessian",
    "Verif.MD.Differentiable.C185_level",
    "Verif.MD.Differentiable.C185_given",
    "Verif.MD.Differentiable.C185_call",
    "Verif.MD.Differentiable.C185_conserved",
    "Verif.MD.Differentiable.C185_unstable",
    "Verif.MD.Differentiable.C185_minimum",
    "Verif.MD.Differentiable.C185_init",
    "Verif.MD.Differentiable.C185_reference"
   ],
   "note": "Strengthens C89, C134, C166, and C167, where eigenvectors were assumed to be differentiable functions along the path. Not applicable to smearing functions with nonpositive delta function (Methfessel-Paxton, Marzari-Vanderbilt), for which the chemical potential is not unique; for the Hessian, different energies at one k point must differ by more than the threshold eps of the code."
  },
  {
   "property": "C186",
   "status": "proved",
   "theorems": [
    "Verif.MD.Wave.C186_repeated",
    "Verif.MD.Wave.C186_lower",
    "Verif.MD.Wave.C186_wave",
    "Verif.MD.Wave.C186_stable",
    "Verif.MD.Wave.C186_soft",
    "Verif.MD.Wave.C186_driver",
    "Verif.MD.Wave.C186_supercell"
   ],
   "note": "Combines C155 (drivers for unit cell and supercell) and C185 (derivatives without smooth eigenvectors). The theorems apply to drivers as set up by the constructor; the force constants of the supercell must be symmetric and different energies at one k point must differ by more than the threshold eps of the code. Not applicable to smearing functions with nonpositive delta function."
  },
  {
   "property": "C187",
   "status": "proved",
   "theorems": [
    "Verif.MD.Thermo.C187_tangent",
    "Verif.MD.Thermo.C187_stable",
    "Verif.MD.Thermo.C187_concave",
    "Verif.MD.Thermo.C187_convex",
    "Verif.MD.Thermo.C187_heating",
    "Verif.MD.Thermo.C187_relaxed",
    "Verif.MD.Thermo.C187_derivative",
    "Verif.MD.Thermo.C187_transition",
    "Verif.MD.Thermo.C187_marzari"
   ],
   "note": "Entropy is the sum that free_energy subtracts. Force constants, coupling and reference forces remain those obtained upon initialization, as in the code. Holds for smearing functions whose entropy is consistent (C37) and whose delta function is positive (for tangents and convexity: nonnegative), such as Fermi-Dirac and Gaussian smearing, not for Methfessel-Paxton and Marzari-Vanderbilt smearing: C187_marzari proves that heating can raise the free energy with the latter."
  },
  {
   "property": "C188",
   "status": "proved",
   "theorems": [
    "Verif.MD.Ground.C188_upper",
    "Verif.MD.Ground.C188_thermal",
    "Verif.MD.Ground.C188_density",
    "Verif.MD.Ground.C188_bracket",
    "Verif.MD.Ground.C188_limit"
   ],
   "note": "Smearing functions enter through three inequalities, which are proved for exact Fermi-Dirac occupations (without overflow guards, see C36 and C37) and for Gaussian smearing. For Methfessel-Paxton and Marzari-Vanderbilt smearing, occupations exceed one and the inequalities do not hold."
  },
  {
   "property": "C189",
   "status": "proved",
   "theorems": [
    "Verif.MD.Warm.C189_soft",
    "Verif.MD.Warm.C189_phonons",
    "Verif.MD.Warm.C189_tangent",
    "Verif.MD.Warm.C189_unique",
    "Verif.MD.Warm.C189_reference",
    "Verif.MD.Warm.C189_heated"
   ],
   "note": "Smearing functions enter through their derivatives (positive, continuous, and bounded delta function), proved for Gaussian smearing; the bound of the delta function is also proved for exact Fermi-Dirac occupations. As in C185, energies and eigenvectors need not be differentiable. The upper bounds are in C182 and C186."
  },
  {
   "property": "C190",
   "status": "proved",
   "theorems": [
    "Verif.MD.Motion.C190_forces",
    "Verif.MD.Motion.C190_exists",
    "Verif.MD.Motion.C190_unique",
    "Verif.MD.Motion.C190_reversed",
    "Verif.MD.Motion.C190_momentum",
    "Verif.MD.Motion.C190_stable",
    "Verif.MD.Motion.C190_rest",
    "Verif.MD.Motion.C190_bounded"
   ],
   "note": "Exact solutions; the integrator itself (i-PI, ASE) is outside of the repository. Smearing with a positive, continuous, and bounded delta function, shown for Gaussian smearing. Sum rules as in C134."
  },
  {
   "property": "C191",
   "status": "proved",
   "theorems": [
    "Verif.MD.Relax.C191_derivative",
    "Verif.MD.Relax.C191_error",
    "Verif.MD.Relax.C191_rate",
    "Verif.MD.Relax.C191_sensitive"
   ],
   "note": "Smearing with a positive, continuous, and bounded delta function, shown for Gaussian smearing. Distances are relative to the center, since collective displacements are ignored by the driver. Optimization routines other than steepest descent are outside of the repository; the error bound applies to their results."
  },
  {
   "property": "C192",
   "status": "proved",
   "theorems": [
    "Verif.MD.Order.C192_relaxed",
    "Verif.MD.Order.C192_broken",
    "Verif.MD.Order.C192_path",
    "Verif.MD.Order.C192_equivalent",
    "Verif.MD.Order.C192_kept",
    "Verif.MD.Order.C192_wave"
   ],
   "note": "Smearing with a positive, continuous, and bounded delta function. Exact arithmetic and exact solutions of the equations of motion; statements about trajectories require acoustic sum rules. C192_wave is a structure without forces that breaks the symmetry, with Gaussian smearing."
  }
 ]
}