# Formal model of deepmodeling/tbplas in Lean 4

## 1. Scope and approach

`/repo` is read as text only.  Every Lean definition that models code carries a
comment with the file and lines it models and, where it simplifies, says so.

Layout (all under `lean/Verif/`):

* `Model/*.lean`  – transcription of the code (definitions only, plus trivial simp lemmas);
* `Spec/*.lean`   – small independent specifications used in theorem statements;
* `Proof/*.lean`  – helper lemmas;
* `Props/*.lean`  – the property theorems, one file per area, each with a
  concrete non-trivial `example`/instance meeting the hypotheses.

Modelling conventions

* The random numbers of Fortran are given values (C80, C119) or, in C124 only, idealised as independent variables uniform in `[0, 1)`;
  that the generator of the compiler approximates this is an assumption, not a theorem.
* Python/Cython/Fortran floating point numbers are modelled by exact `ℝ` / `ℂ`
  (or an arbitrary ring / star ring where nothing more is needed).  Rounding is
  not modelled.  Integers are `ℤ`/`ℕ`; the places where C `int` overflow matters
  are modelled separately (C23).
* Exceptions are values (`Except Err`, or a pair of outcome and post-state for
  the stateful objects, because Python methods that raise may already have
  changed the object).
* numpy arrays are `List`s or functions `ℕ → α` / `Fin n → α`; loops are
  structural recursion or folds that follow the loop of the source; `while`
  loops carry a termination proof.
* Objects that persist over calls (hopping containers, primitive cells,
  supercells, samples) are state machines; properties over histories are
  proved by induction over lists of operations.
* MPI processes are modelled as an indexed family of rank-local computations;
  `all_reduce` is the sum over ranks.

## 2. Trusted base

* Lean 4.33.0 kernel.
* Axioms: at most `propext`, `Classical.choice`, `Quot.sound` (Mathlib standard).
  No own axioms, no `sorry`, no `native_decide`/`bv_decide`.
* The correspondence between the Lean definitions and the source text is by
  reading (comments cite files and lines).  numpy, scipy (`eigh`, `csr_matrix`,
  `ifft`, `jv`), mpi4py, MKL and compilers are modelled by their documented
  mathematical meaning, not verified.

## 3. Plan per property

| id | what is modelled | how it is proved |
|----|------------------|------------------|
| C01 | `IntraHopping` as an association list keyed by (R,i,j) with `_norm_keys`/`check_conj` | refinement to a conjugate-symmetric partial map, induction over op lists |
| C02 | `to_list`, `num_hop` | invariant: stored keys are normalised and unique |
| C03 | `remove_orbitals` of the container | explicit renumbering function `x - #{r in L, r < x}`, monotone injective on survivors |
| C04 | `Observable` + every mutator as outcome/post-state | case analysis on ops, induction over histories; `InterHopping.remove_*` violates: negation proved, `_partial` for the rest |
| C05 | `PrimitiveCell` op machine incl. failing calls | invariant by induction; negative / out-of-range `remove_orbitals` violate: negation with witness, `_partial` for in-range histories |
| C06 | `apply_pbc` | membership characterisation |
| C07 | `trim` | count = degree in hopping graph |
| C08 | hash gated `sync_orb`, `sync_hop` with CPython hash as abstract function | partial: fresh if hash injective on the states met; negation: `hash(-1)=hash(-2)` |
| C09-C13 | `set_ham` loops over ℂ | induction over hop list, matrix algebra; sums |
| C14,C15 | `_id_pc2sc*`, `build_orb_id_pc` | loop invariants, order isomorphism |
| C16 | `_wrap_pbc`, `_fast_div` | loop induction, `Int.emod`/`Int.ediv` |
| C17-C20 | `build_hop_gen`, `split_pc_hop`, `build_hop_pbc` | list permutation; arithmetic on the size bound |
| C21 | `get_hop` + `find_equiv_hopping` | list induction; dtype defect as a modelled tag |
| C22 | constructors as outcome/post-state | negation with witness; partial: on success / on length errors of a different kind |
| C23 | `int32` arithmetic via `Int.bmod` | equality under size bound, negation with witness |
| C24 | `get_orb_id_trim` | degree count |
| C25,C26 | `_get_free_ptr`, `build_ham_dxy_*`, `sort_col_csr` | loop invariants on the partially filled CSR arrays |
| C27 | `_get_ind_start`, `init_hop` | list/offset arithmetic |
| C28 | `rescale_ham`, `init_*` state machine | invariant over histories; violations (auto factor twice, partial re-init) as negations |
| C29 | `get_rescale` | Gershgorin bound; negation for negative on-site energies |
| C30 | `set_mag_field` | phase algebra, loop sums; gauge 2 negation |
| C31 | `build_hop_k`, `fill_ham` | phase algebra |
| C32 | `save_array`, `load_array` as key/value store | round trip |
| C33,C34 | `extend_prim_cell`, `OrbitalMap` | div/mod bijection of all sites of the crystal; Bloch sums; orthogonality of characters |
| C35 | `merge_prim_cell` | block arithmetic; a cell may be given several times |
| C36-C38 | `lattice.py` | matrix algebra, trigonometry |
| C39 | `gen_kpath`, `gen_kmesh` | list induction |
| C40,C41 | all of `SK` | tensor specification over ℝ/ℂ, `ring`-type identities for all 81 label pairs |
| C42 | `SOC`, `SOCTable`, `SOCTable2` | exact matrices over ℂ |
| C43 | `split_list`, `split_range` | list arithmetic |
| C44,C45 | rank-indexed families and `all_reduce` | finite sums; C45 violated: negation + `_partial` |
| C46 | `_dist_sample`, seeds, `all_average` | arithmetic |
| C47-C50 | `lindhard.pyx`, `lindhard.py` | div/mod, calculus |
| C51 | `_eval_f_mat`, product over the loop | matrix similarity |
| C52,C53 | `count_crossing`, `reorder_phases` | induction; negations |
| C54-C56, C64 | `propagation.f90`, `tbpm_kbdc` with rotating buffers | loop invariants to Chebyshev polynomials / Lanczos chain |
| C57 | `green_function` | induction on depth |
| C58 | `tbpm_psi_t` | loop invariant |
| C59 | `_get_bessel_series` | loop induction |
| C60 | the check inside the time loop | negation (single check), `_partial` |
| C61 | `Analyzer.calc_dos` | index cover, sum algebra |
| C62 | `Fermi_dist` | real analysis |
| C63 | `fft1d_inplace` | induction on log2 n |
| C65 | `calc_ac_cond` | sin 0 = 0 |
| C66 | `apply_wsvec` | negation + `_partial` |
| C67 | `gen_seeds` | negation + `_partial` |
| C68 | Pauli expectation values | Cauchy-Schwarz |
| C69 | CSR kernels | sums over row ranges |
| C70 | `find_neighbors` | list characterisation |
| C71 | `OrbitalSet.sync_array` in all histories | invariant on the cached vacancy set; negation for unlocked cells |
| C73 | `gen_kdist` | loop induction |
| C72 | modifiers under `add_vacancies`/`trim` | negation + `_partial` |
| C74 | `reset_lattice` | matrix algebra |
| C75 | `InterHopping` without conjugation | refinement to a plain finite map over histories |
| C76 | Fortran and Cython Lindhard kernels | index transposition, equality of folds |
| C77 | `calc_ac_cond` of `Lindhard` on every number of processes | finite sums; refusal case |
| C78 | `AtomicOrbital` ladder operators | matrix elements, commutator algebra |
| C79 | forward and backward propagation | adjoint of the Chebyshev sum |
| C80 | `random_state`, site states | norms |
| C81-C83, C85 | `tbpm_dos`, `tbpm_ldos`, `tbpm_accond`, `tbpm_dyn_pol`, `tbpm_dccond` | loop invariants over time and samples |
| C82 | `tbpm_quasi_eigenstates` | loop invariant, normalisation |
| C84 | current operator of a sample | commutator algebra on the CSR matrix |
| C86-C90 | `Analyzer` | finite sums, index arithmetic |
| C91 | `get_Fermi_cheb_coef` | discrete orthogonality of Chebyshev polynomials |
| C92, C93 | `wannier90.py` readers and `wan2pc` | parser round trip; refinement to the hopping map |
| C94 | `SpinTexture` cache | invariant over histories; negations |
| C95 | `reshape_prim_cell`, `make_hetero_layer` | enumeration of the images in the search box; counting of cosets (Smith-free, by index of the sublattice); negations |
| C96 | folding of reshaped cells | phase bookkeeping on top of C95; orthogonality of characters for completeness |
| C97 | `spiral_prim_cell` | matrix algebra |
| C98 | `make_graphene_diamond`, `make_graphene_rect` | lattice geometry over ℝ, characteristic polynomial, explicit bijection of sites; negations for complex `t` and for `c` |
| C99 | `make_graphene_soc` through `add_hopping_dict`; time reversal of any cell | blocks to hopping map, lattice geometry; antiunitary symmetry of the Bloch sum |
| C100 | `make_black_phosphorus`; symmetry of any cell | table of bonds from the calls; permutation and phases as a similarity of Bloch matrices |
| C101 | any cell with a unitary or antiunitary symmetry | Fourier transform of the commutation relation; similarity; antisymmetric unitary matrix |
| C102 | `HopDict`, `add_hopping_dict` | induction over the history; fold of `add_hopping` |
| C103 | `make_antimonene` | table closed under the generators; C100, C101 for the bands |
| C104 | `Overlap`, `DiagSolver` with an overlap | general eigensystem as a congruence; roots of the pencil; C10, C11 for the phases |
| C105 | `Timer`, `ProgressBar` | invariant over the history: tables = intervals read off the list of calls |
| C106 | `Config`, `read_config` | invariant: legal names never change by edits |
| C107 | `Solver._get_time_step`, `_get_bessel_series`, `cheb_wf_timestep` | Jacobi-Anger expansion proved from the power series of the Bessel functions; monotone decay beyond the turning point; functional calculus of Hermitian matrices |
| C108 | `get_Fermi_cheb_coef`, `jackson_kernel`, `Fermi` | the Jackson kernel is non-negative of mean one with second moment 1 - cos(pi/N); Cauchy-Schwarz with the Lipschitz constant beta/4; functional calculus |
| C109 | `calc_corr_ac_cond`, `calc_corr_dyn_pol` | C83 combined with C107 and C108 by triangle inequalities |
| C110 | `make_tmdc` | matrix elements as linear forms with coefficients in Z[sqrt 3] computed by the kernel; commutation with the generators checked on the forms; C101 for the bands |
| C111 | neighbour search + `SK` of any cell; `make_graphene_sp` | fold of `add_hopping` over the neighbours (C70); the two-centre integral is invariant under simultaneous rotation of the tensors of both orbitals; hexagonal geometry; C101 for the bands |
| C112 | `make_mos2_soc` | neighbour search and table of bonds; fold of `add_hopping` over the spin-orbit terms; matrix elements of `L.S` under time reversal and mirror; C101 for the Hamiltonian |
| C113 | `set_cube` | Kummer polynomial and its differential equation; Laplacian of f(r) times a harmonic polynomial; Wronskian for orthogonality in n, Gamma integrals and an alternating sum of binomials for the norm, means of monomials over the sphere for the angles |
| C114 | `plot_wfc3d` | closed form of the file (loops to sums over the box of cells), then C113 at every point and C10 for the conventions |
| C115 | the `plot` methods | drawing commands as values; loops to closed forms; the cells drawn are a box by minima and maxima; C20 for supercells, idempotent synchronisation for samples |
| C116 | `plot_scalar` | index arithmetic of `ravel` and `reshape`; negation for every grid that is not square |
| C117 | `print_hk`, `f_dot_s` | the text as tokens, read by a recursive-descent reader of Python expressions; invariant: every entry of the dictionary is the text of a list of summands |
| C118 | `ParamFit` | loop over the columns to a closed form; `leastsq` is an argument with a contract |
| C119 | `init_seed`, sample seeds | 32-bit arithmetic; negation for every seed by inverting odd numbers modulo 2^32 |
| C120 | `orb_id_sc2pc`, `orb_id_pc2sc` and their array versions | from the bijection of C14 on the synchronised tables; the loops of the checks by induction |
| C121 | `Visualizer`: `plot_bands`, `plot_wfc`, `_plot_model`, `plot_vector` | induction over legs and points with C39 and C73; drawing commands as in C115 |
| C122 | `Solver.set_output`, `save_config`, `_save_data`, the order of writes of all calculations | operations as lists of atomic effects on a file system; crash = prefix of the list; names by their last dot; induction over histories |
| C123 | whole chain from `PrimitiveCell.add_*` through `SuperCell` and `Sample` to `set_ham_*` and `build_ham_csr` | the plane waves of the box block-diagonalise the Hamiltonian; equality of characteristic polynomials; ring of N cells as concrete case |
| C124 | `random_state`, sample loops of `tbpm_dos`, `tbpm_accond`, `tbpm_kbdc` | the drawn numbers as a product of uniform measures (idealised; seeding is C119); invariance under rotations of a phase and permutations, the shares of norm as normalised exponential variables; fourth moments by Fubini; pairwise independence of the samples |
| C125 | `DiagSolver.calc_dos`, `_calc_proj`, `gaussian`, `lorentzian` | both basis functions as scaled bumps; integrals and limits by substitution; reordering of bands is a permutation |
| C126 | `Lindhard.__init__`, `_get_vq`, `calc_epsilon`, `calc_epsilon_q0`, and the functions of C45 and C77 | sign of every pair of states; the sum at `-q` reindexed by the bijection `k → k + q` |
| C127 | `set_mag_field`, with the builders of C25 and the current operator of C84 | diagonal conjugation, closed under the free algebra of Hamiltonian and currents; induction over walks in the covering plane |
| C128 | `Haydock_coef`, `green_function`, `ldos_haydock` | Krylov orthogonality; the resolvent minus a polynomial through Chebyshev polynomials off the real axis; supports of the chain vectors by induction |
| C129 | `ldos_haydock`, `random_state` | C128 and the mean of C124; two levels as a counterexample |
| C130 | `calc_corr_dos`, `calc_corr_ldos`, `Analyzer.calc_dos`, `window_hanning` | C107 (propagation), C61 (transform); summation by parts of the windowed kernel, spectral theorem, orthogonality of the phases |
| C131 | `_diag_ham_csr`, `calc_bands`, `calc_dos` with `solver="arpack"` | Bessel's inequality between two orthonormal sets of eigenvectors; C44, C125 |
| C132 | `calc_quasi_eigenstates`, `tbpm_eigenstates` | kernel of the Hanning window by summation by parts, functional calculus; C82, C107 |
| C133 | `calc_corr_ldos`, `tbpm_ldos`, `cheb_wf_timestep`, `Analyzer.calc_ldos` | a time step is a polynomial of the Hamiltonian; supports by induction, half of the polynomial on each side of the scalar product |
| C134 | `calc_bands`, `calc_dos`, `calc_corr_dos`, `calc_corr_ldos`, `calc_ldos_haydock`, `Analyzer.calc_dos` | conjugation with the diagonal matrix of signs turns the Hamiltonian into its negative, a step of the evolution into the backward step, the recursion coefficients into their negatives |
| C135 | `Sample` (assembly, `rescale_ham`, `set_magnetic_field`, `set_ham_*`), `calc_corr_*` | the permutation sends offset + number within the supercell to the other offset + the same number; everything after assembly commutes with it |
| C136 | `merge_prim_cell`, `Sample` (assembly, `set_ham_*`, `build_ham_dxy`), `calc_bands`, `calc_dos`, `calc_corr_dos`, `calc_corr_ldos` | the terms split by the offset of the second part, so the matrices are block diagonal; polynomials, traces and characteristic polynomials of block-diagonal matrices; spectral functions by interpolation |
| C137 | loops with `!$OMP PARALLEL DO` of `math.F90`, `csr.F90`, `fft.F90`, `tbpm.f90`, `analysis.f90` | small-step semantics of threads over a shared memory; footprints of the iterations; invariant of the interleaving; well-founded measure for the end |
| C138 | `MPIEnv` (`all_reduce`, `all_average`, `bcast`, `barrier`, `print`, `log`) and the functions which use it | small-step semantics of processes which meet in collective operations; invariant relating every reachable state to lockstep; measure for the end; counting argument for the hangs |
| C139 | `calc_bands`, `calc_dos`, `calc_dyn_pol_*`, `calc_ac_cond` with two Hamiltonians which differ by a multiple of one | sums over eigenvectors of functions of the eigenvalues are functions of the matrix: the overlaps of two eigenbases vanish between different eigenvalues |
| C140 | `calc_dos`, `calc_dyn_pol_arbitrary` and `calc_ac_cond` for a cell and for `extend_prim_cell` of it | folding: the states of the extension at k are those of the cell at the points (k + m) / d, the velocity operators are intertwined; polarization and conductivity partial, see disagreement 60 |
| C141 | `calc_bands`, `calc_dyn_pol_*` and `calc_ac_cond` of cells with real hoppings | the Hamiltonian at -k is the complex conjugate; the mesh is permuted by k -> -k |
| C142 | `calc_bands`, `calc_dos`, `calc_dyn_pol_*` and `calc_ac_cond` for two descriptions of a crystal | order of the orbitals, copies of the atoms, origin, orientation: the Hamiltonians are unitarily equivalent, the operators are intertwined |
| C143 | `calc_bands`, `calc_dos`, `calc_dyn_pol_*` and `calc_ac_cond` in two systems of units | the results scale by their dimension; partial for the AC conductivity because of the absolute threshold `1e-7` |
| C144 | `calc_dyn_pol_*`, `calc_epsilon` and `calc_ac_cond` for a model made of two parts without hoppings between them | the results are the sums of those of the parts (bands and DOS: C136) |
| C145 | `calc_dyn_pol_*` at q = 0 and its size elsewhere | no response to a uniform potential; bounds by the number of states; partial because the code ignores the overlap of the orbitals |
| C146 | `calc_dyn_pol_*` and `calc_ac_cond` at opposite chemical potentials | equivalent responses of electrons and holes when hoppings join orbitals of different kinds (bands and DOS: C134) |
| C147 | `calc_dyn_pol_*` of a layer in cells with different third lattice vectors | same results if these are perpendicular to the layer; partial because the code takes `V / abs(c)` for the area of the layer |
## 4. Disagreements between code and documentation

Where the code does not have a property, the negation is proved (the theorem in
parentheses) and the property is kept as a `_partial` theorem with the missing
hypothesis in its statement.  "Read only" marks observations that are not the
subject of a theorem.

Builder

1. Exported arrays are refreshed only if `hash()` of the data changes; CPython
   has `hash(-1) == hash(-2)`, so an edit can be missed (C08_stale_array,
   C71_stale_tables for an unlocked cell).
2. `InterHopping.remove_hopping`, `remove_rn`, `remove_orbital(s)` ignore the
   lock (C04_inter_hopping_lock_ignored); `add_hopping` does not check orbital
   indices (C27_inter_out_of_range); the inherited `remove_orbitals` removes the
   same index from both sides (C75).
3. `PrimitiveCell.remove_orbitals` accepts negative and out-of-range indices
   (C05_negative_index_breaks, C05_out_of_range_breaks).
4. A failing `OrbitalSet`/`SuperCell` constructor leaves the primitive cell
   locked (C22_failure_locks_cell).
5. A modifier may hold several terms for one pair with different cells; only the
   last one survives (C21_repeated_pair).  A modifier that only overrides turns
   the index array into float64 (C21_float_indices), then `trim` raises
   (C24_trim_raises).
6. 32-bit index arithmetic overflows for large supercells (C23_overflow).
7. `add_vacancies` does not renumber modifier terms (C72_modifier_shifted).
8. `set_mag_field(gauge=2)` produces no flux (C30_gauge2_no_flux) and leaves all observables of an open sample as without field
   (`C127_gauge2`); loops across the periodic boundary depend on the gauge (C30_wrapping_walks): they enclose the right flux only if the
   boundary is periodic along the vector potential (`C127_ribbon_partial`, `C127_ribbon_wrong_gauge`).
9. `rescale_ham` takes the signed on-site energies (C29_negative_energies); a
   second call undoes the first (C29_second_call); forced `init_hop`,
   `init_orb_eng` break the recorded factor (C28_forced_hop, C28_forced_eng).
10. `load_array` keeps stale arrays of an earlier `save_array` (C32_stale_files).
11. `merge_prim_cell` changes the lattice of its arguments
    (C35_inputs_modified); its test of `extended` has no absolute value.
12. `rotate_coord` truncates for integer arrays (C37_integer_coordinates).
13. `gen_kpath` returns a wrong `hs_index` for an empty segment
    (C39_empty_segment).
14. Slater-Koster integrals with complex parameters are neither Hermitian nor
    rotation invariant (C41_complex_parameters, C40_complex_parameters).
15. Read only: `set_vacancies()` with the default argument clears and then raises
    `TypeError`; `orb_id_sc2pc`, `get_orbital`, `set_orbital` accept negative
    indices; `HopDict.__setitem__` stores before it raises; `find_neighbors` of
    a mixed pair of cells raises `AttributeError`; decimal literals of
    `SOCTable` are rounded at the 16th digit; `frac2cart` and `calc_epsilon`
    call `np.ndarray(list)`.

Diagonalisation

16. The dynamic polarisation with several processes reduces inside the loop over
    q-points and counts earlier rows again (C45_wrong, C45_wrong_example).
    Meshes smaller than the number of processes are refused (C45_refused,
    C77_refused), as are such lists (C43_split_list_refused).
17. `wrap_frac` does not terminate in floating point for huge numbers
    (C48_frac_rounding_loop).
18. `count_crossing` misses phases exactly on the reference
    (C52_on_reference); `reorder_phases` can duplicate and drop phases
    (C53_duplicates).
19. `SpinTexture` keeps the states of an earlier cell (C94_stale_cell) and of a
    failed diagonalisation (C94_failed_update).  An odd number of orbitals
    raises for x and y and is accepted for z (C68_odd_refused).
20. Read only: the Wilson loop of `Z2` closes without the phase e^{iG.r} in
    convention 1; `calc_bands` exhausts a one-shot iterator of orbital indices.

TBPM

21. The propagator and the Fermi operator read coefficient 3 even if the series
    is shorter (C54_short_series, C55_short_series).  `get_Fermi_cheb_coef`
    reads one unset element, without effect (C91_truncation).
22. The norm of the wave function is checked once, not periodically
    (C60_not_periodic), or never (C60_never).
23. `ldos_haydock` has no guard against breakdown of the recursion
    (C57_breakdown); repeated sites break the normalisation of the start vector
    (C80_repeated_site).
24. `correct_spin` multiplies the DC conductivity by four
    (C90_dc_not_doubled).
25. `gen_seeds` may return too few and negative seeds (C67_too_few,
    C67_negative).
26. Read only: `tbpm_dos` with no time step and `tbpm_kbdc` with one kernel write
    out of bounds; `calc_psi_t` with an empty log reads out of bounds; DC and
    quasi-eigenstate drivers divide by norms that can vanish.

Adapter

27. `apply_wsvec` assigns instead of accumulating: images that meet lose weight
    (C66_meeting_terms_lost); `read_hop` ignores the degeneracies.

28. `reshape_prim_cell` searches too few cells: with the default `delta` 0.01 every
    cell of length >= 200 lacks orbitals (C95_large_loses_orbitals), so do oblique
    three-dimensional cells (C95_oblique_loses_orbitals) and cells with orbitals
    outside [0, 1) (C95_outside_loses_orbitals).
29. `spiral_prim_cell` on a cell without orbitals rotates the lattice and then
    raises (C97_empty).
30. `make_graphene_diamond` and `make_graphene_rect` with a `t` that is not real put `t` on
    one bond of a site and its conjugate on the two others, and do so differently: the two
    cells are not the same crystal (C98_complex_t).
31. `make_graphene_rect(from_scratch=False)` ignores `c` (C98_c_ignored).
32. `add_hopping_dict` is not atomic: an on-site element below 1e-5 but not zero passes the
    check, and the hopping terms before it are added before the exception; a refused
    `hop_dict[(0, 0, 0)] = M` stays in the dictionary (C102_not_atomic).  A dictionary with a
    matrix for the cell (0, 0, 0) can be added only once: the second call raises `ValueError`
    (C102_once).  Zero elements do not reset a hopping that the cell already has (C102_add).
33. The table of `make_antimonene` lacks the conjugates of the bonds of `t_07`, `t_08`, `t_10`;
    `add_hopping` supplies them, so the crystal is right (C103_antimonene).
34. With an overlap, `calc_bands` and `calc_dos` still project by `|c|²`: the projections on all
    orbitals do not sum to one per state (C104_projection, C104_projection_not_one).
35. An `Overlap` without off-site terms, i.e. orthonormal orbitals, is refused with
    `PCHopEmptyError` (C104_empty_refused).
36. An `Overlap` keeps the orbital positions of the time it was made; if an orbital of the model is
    moved afterwards the bands in convention 1 are wrong (C104_moved_orbital).
37. `ProgressBar` does not report the end of the task (100 per cent) unless `tasks // scales` divides
    the number of tasks, and may print almost twice as many lines as it has scales
    (`C105_progress_end`, `C105_progress_count`); for no tasks the first count raises
    `ZeroDivisionError` (`C105_progress_zero`).
38. `Config.check_params` never looks at `DC_conductivity` and `quasi_eigenstates`
    (`C106_unchecked`), nor for missing parameters (`C106_missing`).
39. `read_config` declares every key of the file legal, so a misspelled key in a file is never
    found, while a correct parameter the file lacks is refused when it is set
    (`C106_read`, `C106_read_witness`).  The documentation of `Config` names
    `nr_ran_samples`, which is refused; the parameter is `nr_random_samples`.  It gives the default
    of `Bessel_max` as 100; it is 250 (`C106_bessel_max`).
40. `make_mos2_soc` types the lattice and the positions with rounded digits, so that its lattice is not
    exactly hexagonal (C112_not_hexagonal).  It adds the spin-orbit energy to the hopping it reads, but
    then stores the spin-orbit energy alone; no pair has both, so the result is right (C112_mos2).

41. `set_cube` writes zero to grid points within 1e-7 bohr of the nucleus, to avoid a division by zero. For
    s orbitals the wave function does not vanish there (`C113_nucleus`): a cube with a grid point on an
    atom has a hole.

42. `plot_wfc3d` without `rn_max` always raises `TypeError`: the default is an array of floats, which
    `range` rejects (`C114_default`).
43. `plot_wfc3d` reduces positions to fractional coordinates without subtracting the origin of the cell.  In
    convention 1 this multiplies the wave by a phase, so the real and imaginary parts of the same state differ
    between the conventions if the origin is not zero; squares are right (`C114_conventions`).

44. `PrimitiveCell.plot(with_conj=False)` draws the cells between the smallest and the largest cell index of the
    hopping terms.  Cell 0, where all hopping terms start, need not be among them: arrows start where no
    orbital is drawn (`C115_dangling`).
45. `SuperCell.plot` raises `IndexError` if the modifier only overrides existing terms, because the indices
    returned by `get_hop` are then floats (`C115_modifier_fails`, cf. item on `C21_float_indices`).
46. `plot_scalar` reshapes the interpolated values to `(nx, ny)` where `(ny, nx)` is needed: the picture is
    scrambled for every grid that is not square (`C116_not_square`).
47. `init_seed` reduces the seed modulo 104717 after 32-bit products have wrapped: different samples and different seeds can
    start from the same random numbers (with gfortran, seeds 1 and 675822; samples 5 and 329113 of the default seed). `C119`.
48. `ParamFit` divides integer weights in place, which NumPy refuses with `UFuncTypeError` instead of the documented `ValueError`; weights
    that are all zero become NaN without an exception. `C118_accepts`.
49. `orb_id_sc2pc` takes a negative index as counting from the end instead of raising `IDSCIndexError` as documented (the array
    version does raise). `C120_sc2pc_negative`.
50. `orb_id_pc2sc_array` converts arrays of 64-bit integers to 32 bits before the check, so that an index 2^32 too large is accepted.
    `C120_pc2sc_array_wraps`.
51. `plot_wfc`, `plot_scalar` and `plot_vector` with a primitive cell without hopping terms raise `IndexError` (`hop_ind[:, 3]` of a
    one-dimensional empty array). `C121_wfc_fails`.
52. (`frac2cart` by reading, not modelled.) `frac2cart` and `calc_epsilon` convert lists with `np.ndarray(...)`, the constructor of uninitialised
    arrays, instead of `np.array(...)`: nested lists raise `TypeError`, although the code means to accept them (`C126_epsilon_list` for `Lindhard.calc_epsilon`).
53. Result files: the default prefix is the time in whole seconds, so two solvers created within one second in the same directory
    overwrite each other's results (`C122_same_second_fails`); `calc_corr_dc_cond` overwrites the file of `calc_corr_dos` of the same
    solver by a function with one value less (`C122_dc_fails`); a crash during saving leaves neither the old nor the new result
    (`C122_crash_loses`).
54. The configuration is stored when the output is set, before `_dist_sample` raises `nr_random_samples` for MPI: the stored number of samples is
    not the one used. `C122_samples_fails` (running again with as many processes is not affected: `C122_rerun`).
55. `set_output` with a directory whose parent is missing raises on the master only, before the barrier: with MPI the other processes wait
    forever (`C122_parent_missing`). If the user goes on (one process), results still go to the old files while the configuration would go to the new
    ones (`C122_stale`).
56. `calc_epsilon_q0` of the Lindhard calculator divides by the frequency, and the default frequency grid starts at zero: the first entry is never a
    finite number (`C126_loss`).
57. `ldos_haydock` averages the recursion coefficients over the samples and takes one Green's function of the averages. With several sites and
    more than one sample the result is not the mean of the densities (`C129_several_samples_wrong`).
58. `calc_dos` divides by the number of bands, which for the sparse solver is `k`, not the number of orbitals: the density of states of the two
    solvers differs by the factor `num_orb / k` even where all states were found (`C131_dos_wrong`). A model with one orbital cannot be
    treated by the sparse solver with any `k` (`C131_default`).
59. An exception on one process of a parallel run is not reported to the others. `dist_bound` raises `ValueError` on processes without k-points, so
    with more processes than k-points `calc_ac_cond`, `calc_dyn_pol_regular` and `calc_dyn_pol_arbitrary` raise there while the other processes wait
    for ever in `Allreduce` (`C138_ac_hangs`, `C138_dyn_regular_hangs`, `C138_dyn_arbitrary_hangs`). The same happens if `os.mkdir` fails on the master
    in `set_output` (`C138_output_hangs`) or the master raises in a function of the analyzer (`C138_analysis_hangs`).
60. The dynamical polarization is divided by `extended` of the cell (lindhard.py:416, 505, 645), although the prefactor `g_s / (V N)` makes the sum
    independent of the cell already. The result of a cell extended `d_a d_b d_c` times is too small by that factor (`C140_dyn_pol_wrong`).
    So is the AC conductivity (`C140_ac_partial`).
61. The AC conductivity leaves out pairs of levels closer than the absolute number `1e-7` (lindhard.pyx:372, lindhard.f90:232), whatever the unit
    of energy. A conducting molecule does not conduct if its energies are given in a unit `10^8` times as large (`C143_ac_wrong`). Pairs of
    degenerate levels, the intraband part, are left out in every unit: the line with the derivative of the Fermi function is a comment.
62. `Lindhard` passes an `overlap` on to the solver, and then takes scalar products of the states as if the orbitals were orthonormal
    (lindhard.pyx:151-154, 225-228): two orbitals with an overlap respond to a uniform static potential (`C145_overlap_wrong`).
63. For two-dimensional models `Lindhard._get_dnk` (lindhard.py:311-325) takes the cross product of the first two three-dimensional reciprocal
    vectors, which belongs to the area V / |c|.  This is the area of the layer only if the third lattice vector is perpendicular to it; otherwise
    the polarization is too large by |c| over the height of the cell (`C147_tilted`, `C147_tilted_wrong`).

## 5. Modules: what is and is not modelled

| model | source | assumed / left out |
|-------|--------|--------------------|
| `PyDict` | CPython `dict` | insertion order, unique keys |
| `Hopping`, `InterHop` | `builder/base.py` (`check_conj`, `Observable` lock part, `IntraHopping`, `InterHopping`) | subscribers' `update` is the explicit `sync_array` call |
| `Lattice`, `Base` | `base/lattice.py`, `base/kpoints.py` | `numpy.linalg.inv` is the exact inverse |
| `Prim` | `builder/primitive.py` (`PrimitiveCell`), `check_rn`/`check_pos`/`check_pbc`, `HopDict` as the list of nonzero elements | `hash` is an uninterpreted function; printing left out |
| `Bloch` | `cython/primitive.pyx` `set_ham`, `set_ham_dense`, `set_ham_csr` | `csr_matrix((data, ij))` sums duplicates |
| `Super`, `SuperCell` | `cython/super.pyx`, `builder/super.py` | position modifiers are arbitrary functions; printing left out |
| `Csr`, `Sample` | `cython/sample.pyx`, `builder/sample.py`, `SCInterHopping` | `argsort` is an argument with a contract; `.npz` files are a key/value store |
| `Advanced`, `Neighbors`, `SlaterKoster`, `Soc`, `Reshape`, `Spiral` | `builder/advanced.py` | `KDTree` is an argument with a contract; decimal literals have their decimal value; `print_soc_table` left out |
| `Parallel` | `utils.py` (`split_*`), `parallel.py`, `diagonal/base.py` (LAPACK path), `tbpm/solver.py` `_dist_sample` | `eigh` is an argument (any eigendecomposition); ARPACK path and `print` left out; processes in lockstep |
| `Lindhard`, `LindhardAC` | `cython/lindhard.pyx`, `fortran/lindhard.f90`, `diagonal/lindhard.py` | OpenMP loops through a schedule; 3D `calc_epsilon` array construction bug not modelled |
| `Overlap` | `builder/overlap.py`, `DiagSolver` with an overlap | `zhegv` is an argument with a contract; the ARPACK/LOBPCG path is left out |
| `Z2`, `Spin` | `diagonal/z2.py`, `diagonal/magnetic.py` | `zgeev`, `eigh`, `hash` are arguments |
| `Kernel`, `Tbpm`, `Fft` | `fortran/{csr,math,propagation,funcs,kpm,fft,tbpm,random}.*`, drivers in `tbpm/solver.py` | MKL/BLAS/VML/FFTW variants, `DEBUG` output and progress reports left out; the generator of `random.f90` is an oracle; Bessel functions are an argument |
| `Mpi` | collective operations of `parallel.py` and the programs of the processes in `diagonal/{base,z2,lindhard}.py`, `tbpm/{solver,analysis}.py` | blocking collective operations in the order of the calls; implementations may let processes leave a broadcast early; the launcher (`mpirun`) left out |
| `Omp` | the loops with `!$OMP PARALLEL DO` of `fortran/{math,csr,fft,tbpm,analysis}.*` | loads and stores one by one, sequentially consistent; every distribution of iterations; `SIMD` left out |
| `Analysis` | `tbpm/analysis.py`, `fortran/analysis.f90` | `hilbert` is an argument |
| `Wannier` | `adapter/wannier90.py` | lexing (white space, number formats) |
| `Materials` | `materials/graphene.py` without `make_graphene_sp` (see `SkCells`) | |
| `Phosphorene` | `materials/phosphorene.py` | |
| `HopDict` | `builder/base.py` `HopDict`, `builder/primitive.py` `add_hopping_dict` | |
| `Antimonene` | `materials/antimonene.py` | decimal literals have their decimal value |
| `Tmdc` | `materials/xs2.py`: `make_tmdc` | decimal literals have their decimal value; the helper matrices are written as the loops of the source write them |
| `SkCells` | `materials/graphene.py` `make_graphene_sp`, `materials/xs2.py` `make_mos2_soc` | decimal literals have their decimal value; `KDTree` as in `Neighbors` |
| `Atom` | `cython/atom.pyx` | integers do not overflow |
| `Cube` | `visual.py` (`plot_wfc3d`) | formatting of the file: printed digits, line breaks |
| `PrintHk` | `print_hk`, `f_dot_s` of `primitive.py` | blanks left out; numbers are tokens, i.e. `str` and reading back are exact |
| `ParamFit` | `ParamFit` of `advanced.py` | the abstract methods and `leastsq` are arguments |
| `Random` | seeding in `fortran/random.f90` | products wrap as in gfortran; the generator is not modelled |
| `OrbId` | conversions of orbital indices, `super.py` 329-427, `super.pyx` 168-345 | tests of the shapes of arrays left out |
| `Visual` | `plot_bands`, `plot_wfc`, `_plot_model` (primitive cells), `plot_vector` of `visual.py` | as `Plot`; colours of lines, labels of axes and sizes left out |
| `Output` | `Solver.__init__`, `set_output`, `save_config`, `_save_data`; which calculation writes which files, in which order | results are parameters; paths without `..` or links; content of the text logs arbitrary; numpy and pickle formats are trusted encoders |
| `Plot` | `plot` of `primitive.py`, `super.py`, `sample.py`; `builder/visual.py`; `plot_scalar` of `visual.py` | what `matplotlib` makes of the drawing commands, colours chosen by the user, line styles, saving; `griddata` is any function of the point |
| `Utils` | `utils.py` `Timer`, `ProgressBar` | clock readings are arguments; formatting of numbers not modelled |
| `Evolution` | `tbpm/solver.py` `_get_time_step`, preparation of the drivers; `Sample.energy_range` | `scipy.special.jv` is the exact Bessel function (`Spec/Bessel.lean`, power series) |
| `LindhardEps` | `Lindhard.__init__`, `_get_vq`, `calc_epsilon`, `calc_epsilon_q0` | mesh numbers are natural numbers; division by zero gives `none` instead of infinities or `nan` |
| `Arpack` | `_diag_ham_csr`, `calc_bands`, `calc_dos` with `solver="arpack"`, without overlap | `eigsh` is an argument with a contract |
| `Config` | `tbpm/config.py` | `pickle` stores and restores attributes; the first element of a set is unspecified |
| `Seeds` | `utils.py` `gen_seeds` | `os.urandom`, `random` are arguments |

Not modelled at all: the sparse solver with an overlap (`lobpcg`); `plot_xy`, `plot_dos`, `plot_phases` of `visual.py`; the printing functions
(`PrimitiveCell.print`, `print_soc_table`, `print_banner_*`, `get_datetime`, `_echo_time_step_fs`) and the messages
of the exception classes; the test helpers (`TestHelper`, `test_*` of `super.pyx`); `make_csr_matrix`; file formats; floating-point
rounding and performance. The one-line elementwise loops of `fortran/math.F90` (`v?v`, `axpy`, `copy`, ...) appear as vector operations in the
models of their callers (C137 shows that the parallel loops are these operations), and getters and one-line wrappers (`calc_bands` of a cell, `get_lattice_area`, `num_orb`, ...) as the functions they
return.

Axioms: `AXIOMS.md` is generated from the compiled project
(`#print axioms` on every theorem of MANIFEST.json) and lists the axioms of every
theorem; none uses anything besides `propext`, `Classical.choice`, `Quot.sound`.

Mutation tests: `seeded/LOG.jsonl` (one line per edit of the model in a scratch
copy; the theorems that fail, and the ones tightened afterwards).
