{"id": "C01", "title": "A hopping container behaves as a conjugate-symmetric map", "statement": "After any history of add/remove/remove_rn/purge/remove_orbitals calls on an (unlocked) intra-cell hopping container, looking up (R,i,j) and (-R,j,i) always answers consistently: both are present or both are absent, and the two energies are complex conjugates. add(R,i,j,E) makes get(R,i,j)=E and get(-R,j,i)=conj E, and leaves every unrelated entry untouched; the last write wins no matter which of the two conjugate spellings was used for the earlier write.", "quantifier": "every finite sequence of container calls, every cell index, orbital pair and complex energy", "why_tests_cant": "the claim ranges over all call histories and over infinitely many cell indices; tests fix a few.", "anchors": ["tbplas/builder/base.py:IntraHopping.add_hopping", "tbplas/builder/base.py:IntraHopping.get_hopping", "tbplas/builder/base.py:IntraHopping.remove_hopping", "tbplas/builder/base.py:IntraHopping._norm_keys", "tbplas/builder/base.py:check_conj"]}
{"id": "C02", "title": "Exactly one member of each conjugate pair is exported", "statement": "After any history, the exported term list (to_list / to_array) contains every present hopping exactly once, never contains both (R,i,j) and (-R,j,i) (so a consumer that adds the conjugate of each term counts nothing twice), has no repeated (R,i,j), and its length is num_hop.", "quantifier": "every finite sequence of container calls", "why_tests_cant": "an unreduced duplicate appears only after particular histories; tests can only sample them.", "anchors": ["tbplas/builder/base.py:IntraHopping.to_list", "tbplas/builder/base.py:IntraHopping.to_array", "tbplas/builder/base.py:IntraHopping.num_hop"]}
{"id": "C03", "title": "Removing orbitals renumbers hoppings exactly", "statement": "remove_orbitals(L) on the container deletes precisely the hoppings touching an orbital in L and renumbers every other (R,i,j) to (R,i',j') where x' = x minus the number of removed indices below x; energies are unchanged and the renumbering is injective on survivors so no two hoppings are merged.", "quantifier": "every container state reachable by any history and every list of removed indices (in any order, with or without repetitions)", "why_tests_cant": "all subsets of removed orbitals and all hopping graphs have to be covered.", "anchors": ["tbplas/builder/base.py:IntraHopping.remove_orbitals", "tbplas/builder/base.py:IntraHopping.remove_orbital"]}
{"id": "C04", "title": "Locked objects cannot be modified", "statement": "While an object is locked, every mutating method raises LockError and leaves orbitals, hoppings and lattice exactly as they were, and this persists over any history of mutating calls; inter-cell hopping containers are included in the claim.", "quantifier": "every locked state, every sequence of mutating calls with arbitrary arguments", "why_tests_cant": "needs to hold for every method and every order of calls.", "anchors": ["tbplas/builder/base.py:Observable", "tbplas/builder/base.py:InterHopping", "tbplas/builder/primitive.py:PrimitiveCell"]}
{"id": "C05", "title": "A primitive cell stays well formed over every history of edits", "statement": "Starting from an empty cell, after any sequence of add_orbital / set_orbital / remove_orbitals / add_hopping / remove_hopping / trim / apply_pbc calls (failing calls included), every stored hopping refers to existing orbitals and no hopping is an on-site (R=0,i=i) term.", "quantifier": "every finite history of primitive-cell calls, including calls that raise", "why_tests_cant": "invalid indices are silently used by unchecked compiled code; the invariant must hold after every history.", "anchors": ["tbplas/builder/primitive.py:PrimitiveCell.remove_orbitals", "tbplas/builder/primitive.py:PrimitiveCell.add_hopping", "tbplas/builder/primitive.py:PrimitiveCell._check_hop_index"]}
{"id": "C06", "title": "apply_pbc keeps exactly the hoppings inside the periodic directions", "statement": "apply_pbc((pa,pb,pc)) deletes exactly the hoppings whose cell index has a nonzero component along a non-periodic direction and changes nothing else; applying it twice equals applying it once and the order of successive calls does not matter.", "quantifier": "every cell and every choice of boundary conditions", "why_tests_cant": "all cell indices and all hopping sets.", "anchors": ["tbplas/builder/primitive.py:PrimitiveCell.apply_pbc"]}
{"id": "C07", "title": "trim removes exactly the dangling orbitals", "statement": "trim() removes exactly the orbitals that take part in at most one hopping term (counting the conjugate), preserving the order and data of the others and all hoppings among survivors; orbitals with two or more hoppings are never removed by that call.", "quantifier": "every primitive cell with hoppings", "why_tests_cant": "all hopping graphs.", "anchors": ["tbplas/builder/primitive.py:PrimitiveCell.trim"]}
{"id": "C08", "title": "Exported arrays always reflect the current orbitals and hoppings", "statement": "Whenever orb_pos/orb_eng/hop_ind/hop_eng are read through the accessors (which synchronise first), they describe the orbitals and hoppings currently stored, after every history of edits.", "quantifier": "every interleaving of edits and reads", "why_tests_cant": "staleness depends on the interleaving and on hash collisions between arbitrary values.", "anchors": ["tbplas/builder/primitive.py:PrimitiveCell.sync_orb", "tbplas/builder/primitive.py:PrimitiveCell.sync_hop", "tbplas/builder/primitive.py:PrimitiveCell._update_attr_hash"]}
{"id": "C09", "title": "The Bloch Hamiltonian is Hermitian", "statement": "For every primitive cell, every k-point and both phase conventions, the matrix assembled by set_ham_dense is Hermitian.", "quantifier": "every list of hopping terms, every real k, both conventions", "why_tests_cant": "continuum of k-points and energies; eigh silently uses one triangle only, so a non-Hermitian matrix would not be noticed.", "anchors": ["tbplas/cython/primitive.pyx:set_ham", "tbplas/builder/primitive.py:PrimitiveCell.set_ham_dense"]}
{"id": "C10", "title": "Both phase conventions give the same spectrum", "statement": "For every k the convention-1 and convention-2 Hamiltonians are related by the diagonal unitary diag(exp(2 pi i k.r_j)), hence have the same characteristic polynomial (same bands).", "quantifier": "every cell and every real k", "why_tests_cant": "continuum of k and positions.", "anchors": ["tbplas/cython/primitive.pyx:set_ham"]}
{"id": "C11", "title": "Bands are periodic in reciprocal space", "statement": "For every integer vector G, H(k+G)=H(k) in convention 2, and H(k+G) is unitarily equivalent to H(k) in convention 1.", "quantifier": "every cell, every real k, every integer shift", "why_tests_cant": "infinitely many shifts and k-points.", "anchors": ["tbplas/cython/primitive.pyx:set_ham"]}
{"id": "C12", "title": "The Bloch Hamiltonian is the Fourier sum of the full hopping map", "statement": "H_ij(k) equals delta_ij e_i + sum over all R of t_ij(R) exp(2 pi i k.(R [+ r_j - r_i])), where t is the full conjugate-symmetric hopping map presented by get_hopping; in particular the result does not depend on the order of insertion or on which conjugate was stored.", "quantifier": "every history of edits, every k", "why_tests_cant": "ranges over all histories producing the same map.", "anchors": ["tbplas/cython/primitive.pyx:set_ham", "tbplas/builder/base.py:IntraHopping.to_array"]}
{"id": "C13", "title": "Dense and sparse Bloch Hamiltonians agree", "statement": "set_ham_csr and set_ham_dense describe the same matrix for every cell, k and convention.", "quantifier": "every cell, k, convention", "why_tests_cant": "all hopping lists including repeated pairs with different cell indices.", "anchors": ["tbplas/builder/primitive.py:PrimitiveCell.set_ham_csr", "tbplas/builder/primitive.py:PrimitiveCell.set_ham_dense"]}
{"id": "C14", "title": "Orbital numbering of a supercell with vacancies is a bijection", "statement": "With vacancies, the map from (ia,ib,ic,io) to the supercell index is a strictly monotone (w.r.t. the vacancy-free numbering) bijection from the non-vacant quadruples to 0..num_orb_sc-1, with the tabulated inverse; vacancies and only vacancies are rejected; num_orb_sc = na*nb*nc*num_orb_pc - number of vacancies.", "quantifier": "every dimension, number of orbitals and set of vacancies", "why_tests_cant": "all vacancy sets; a failure produces a silently wrong Hamiltonian.", "anchors": ["tbplas/builder/super.py:OrbitalSet.orb_id_pc2sc", "tbplas/builder/super.py:OrbitalSet.orb_id_sc2pc", "tbplas/cython/super.pyx:build_orb_id_pc", "tbplas/cython/super.pyx:id_pc2sc"]}
{"id": "C15", "title": "The bisection index search agrees with the linear search", "statement": "For every sorted vacancy list the production bisection search terminates and returns the same index (or vacancy marker) as the reference linear search.", "quantifier": "every sorted duplicate-free vacancy list and every query", "why_tests_cant": "bisection boundary errors show only for particular lists.", "anchors": ["tbplas/cython/super.pyx:_id_pc2sc_vac2", "tbplas/cython/super.pyx:_id_pc2sc_vac"]}
{"id": "C16", "title": "Wrapping a cell index by the periodic boundary is Euclidean division", "statement": "Along a periodic direction the wrapped index lies in [0,n) and index = wrapped + n*quotient, for every integer index (negative included); along an open direction the index is unchanged and flagged outside exactly when not in [0,n). The loops always terminate.", "quantifier": "every integer index and every positive size", "why_tests_cant": "unbounded integers, loop termination.", "anchors": ["tbplas/cython/super.pyx:_wrap_pbc", "tbplas/cython/super.pyx:_fast_div"]}
{"id": "C17", "title": "The fast hopping builder equals the general builder", "statement": "For a vacancy-free supercell, the optimised hopping builder produces the same multiset of terms (bra, ket, energy, displacement) as the general builder.", "quantifier": "every primitive cell, dimension and boundary condition accepted by the constructor", "why_tests_cant": "all sizes and hopping ranges.", "anchors": ["tbplas/builder/super.py:SuperCell._init_hop_fast", "tbplas/builder/super.py:SuperCell._init_hop_gen", "tbplas/cython/super.pyx:build_hop_pbc", "tbplas/cython/super.pyx:build_hop_gen", "tbplas/cython/super.pyx:split_pc_hop"]}
{"id": "C18", "title": "Supercell hoppings are exactly the images of primitive hoppings", "statement": "The general builder yields, for every non-vacant bra orbital and every primitive hopping from it, exactly one term whose ket is the wrapped image, unless the ket is a vacancy or lies outside an open boundary; all indices are within range.", "quantifier": "every cell, dimension, boundary condition, vacancy set", "why_tests_cant": "all geometries.", "anchors": ["tbplas/cython/super.pyx:build_hop_gen"]}
{"id": "C19", "title": "The minimal-size check prevents double counting", "statement": "If dim_i >= 2*max|R_i|+1 for every direction (what the constructor enforces), then no two generated hoppings connect the same pair of supercell orbitals, none is on-site, and no term and its conjugate are both generated.", "quantifier": "every reduced hopping list and every accepted size", "why_tests_cant": "the bound is an arithmetic fact about all ranges.", "anchors": ["tbplas/builder/super.py:OrbitalSet.__init__", "tbplas/cython/super.pyx:build_hop_gen"]}
{"id": "C20", "title": "Hopping displacements are the true bond vectors", "statement": "The dr returned for a hopping equals the Cartesian displacement between the bra orbital and the un-wrapped ket image, i.e. (R + r_j - r_i) in lattice coordinates mapped by the lattice vectors, including bonds crossing the periodic boundary.", "quantifier": "every hopping and every geometry", "why_tests_cant": "currents and magnetic phases depend on every bond.", "anchors": ["tbplas/cython/super.pyx:build_hop_gen", "tbplas/cython/super.pyx:build_hop_pbc", "tbplas/builder/super.py:SuperCell.get_hop"]}
{"id": "C21", "title": "Modifier hoppings override or extend the supercell hoppings", "statement": "get_hop with a modifier returns for each modified pair the modifier's energy (conjugated when stored in the opposite order) and leaves all other terms as built; pairs not present are appended exactly once.", "quantifier": "every supercell and every modifier history", "why_tests_cant": "ordering/conjugation combinations over all pairs.", "anchors": ["tbplas/builder/super.py:SuperCell.get_hop", "tbplas/cython/super.pyx:find_equiv_hopping"]}
{"id": "C22", "title": "A failed supercell constructor has no side effects", "statement": "If the constructor of a supercell raises, the primitive cell passed in is unchanged, in particular it is not left locked.", "quantifier": "every rejected argument combination", "why_tests_cant": "all error paths.", "anchors": ["tbplas/builder/super.py:OrbitalSet.__init__", "tbplas/builder/sample.py:Sample.__init__"]}
{"id": "C23", "title": "Index arithmetic is free of 32-bit overflow", "statement": "The linear orbital index computed with C int arithmetic equals the mathematical index for every legal quadruple.", "quantifier": "every dimension and orbital count, every legal quadruple", "why_tests_cant": "overflow occurs only for huge systems that tests never build.", "anchors": ["tbplas/cython/super.pyx:_id_pc2sc"]}
{"id": "C24", "title": "Supercell trimming removes exactly dangling orbitals", "statement": "SuperCell.trim turns into vacancies exactly those orbitals that take part in at most one hopping, keeps earlier vacancies, and touches no other orbital.", "quantifier": "every supercell", "why_tests_cant": "all hopping graphs.", "anchors": ["tbplas/builder/super.py:SuperCell.trim", "tbplas/cython/super.pyx:get_orb_id_trim"]}
{"id": "C25", "title": "The CSR Hamiltonian of a sample is diag + hoppings + hermitian conjugate", "statement": "Both CSR builders (fast and safe) return a structurally valid CSR matrix (monotone row pointers, column indices in range, every slot written exactly once) whose matrix is diag(orb_eng)+T+T^dagger (without the on-site energies below the documented cutoff), so it is Hermitian, and the dx/dy arrays are antisymmetric partners.", "quantifier": "every list of hopping terms of every length", "why_tests_cant": "memory-layout errors depend on the hopping list.", "anchors": ["tbplas/cython/sample.pyx:build_ham_dxy_fast", "tbplas/cython/sample.pyx:build_ham_dxy_safe", "tbplas/cython/sample.pyx:_get_free_ptr"]}
{"id": "C26", "title": "Sorting columns does not change the sparse matrix", "statement": "sort_col_csr leaves the represented matrices (Hamiltonian, dx, dy) unchanged and leaves the column indices of each row in non-decreasing order.", "quantifier": "every CSR matrix", "why_tests_cant": "all permutations.", "anchors": ["tbplas/cython/sample.pyx:sort_col_csr"]}
{"id": "C27", "title": "Sample assembly is block structured", "statement": "The sample's orbital arrays are the concatenation of its supercells' arrays and each hopping of a supercell or inter-supercell container is shifted by the start offsets of its bra and ket cells: every index is in range and lies in the right block.", "quantifier": "every number and size of supercells and inter-hoppings", "why_tests_cant": "all compositions.", "anchors": ["tbplas/builder/sample.py:Sample._get_ind_start", "tbplas/builder/sample.py:Sample.init_hop"]}
{"id": "C28", "title": "Rescaling is tracked consistently over any history", "statement": "After any sequence of rescale_ham(factor) calls the stored Hamiltonian times the recorded rescale factor equals the original Hamiltonian, so energies reported in eV are independent of rescaling.", "quantifier": "every sequence of rescale_ham / init / reset calls", "why_tests_cant": "ranges over histories.", "anchors": ["tbplas/builder/sample.py:Sample.rescale_ham", "tbplas/builder/sample.py:Sample.init_hop", "tbplas/builder/sample.py:Sample.init_orb_eng"]}
{"id": "C29", "title": "The automatic rescaling factor bounds the spectrum", "statement": "After rescale_ham() with the automatic factor, every eigenvalue of the rescaled Hamiltonian lies in [-1,1], as the Chebyshev propagation requires.", "quantifier": "every sample Hamiltonian and each of its eigenvalues", "why_tests_cant": "spectral bound over all Hermitian matrices.", "anchors": ["tbplas/cython/sample.pyx:get_rescale", "tbplas/builder/sample.py:Sample.rescale_ham"]}
{"id": "C30", "title": "A magnetic field multiplies hoppings by the Peierls phase of a constant field", "statement": "set_magnetic_field changes no hopping modulus, is additive in the field strength, and in every gauge the phase accumulated around every closed loop of hoppings equals the flux of the same uniform field (gauge independence).", "quantifier": "every sample, field strength, loop and gauge choice", "why_tests_cant": "all loops and all geometries.", "anchors": ["tbplas/cython/sample.pyx:set_mag_field", "tbplas/builder/sample.py:Sample.set_magnetic_field"]}
{"id": "C31", "title": "Setting k-points composes additively and reproduces the Bloch Hamiltonian", "statement": "set_k_point(k1) followed by set_k_point(k2) gives the phases of k1+k2, keeps the Hamiltonian Hermitian, and fill_ham's Hamiltonian is the Bloch matrix of the sample.", "quantifier": "every k-point sequence", "why_tests_cant": "all k and histories.", "anchors": ["tbplas/cython/sample.pyx:build_hop_k", "tbplas/builder/sample.py:Sample.set_k_point", "tbplas/cython/sample.pyx:fill_ham"]}
{"id": "C32", "title": "save_array followed by load_array restores the sample", "statement": "Loading previously saved arrays restores orbital energies, positions, hoppings and displacements exactly.", "quantifier": "every sample state", "why_tests_cant": "all states/histories.", "anchors": ["tbplas/builder/sample.py:Sample.save_array", "tbplas/builder/sample.py:Sample.load_array"]}
{"id": "C33", "title": "Extending a primitive cell replicates orbitals and hoppings exactly", "statement": "extend_prim_cell(dim) has dim_a*dim_b*dim_c copies of every orbital at the translated positions, and exactly that many copies of every hopping, each connecting the translated images with the correct new cell index; no hopping is lost, merged or made diagonal.", "quantifier": "every cell and every dimension", "why_tests_cant": "all sizes; wrong wrap of negative indices shows only for some.", "anchors": ["tbplas/builder/advanced.py:extend_prim_cell", "tbplas/builder/advanced.py:OrbitalMap"]}
{"id": "C34", "title": "The extended cell folds the band structure", "statement": "If v is an eigenvector of the original Bloch Hamiltonian at k+m/dim for an integer vector m, the corresponding Bloch vector is an eigenvector of the extended cell's Hamiltonian at the folded k with the same eigenvalue; the spectrum of the extended cell is exactly the union of the folded spectra, with multiplicities.", "quantifier": "every cell, dimension, k, m", "why_tests_cant": "continuum of k and all sizes.", "anchors": ["tbplas/builder/advanced.py:extend_prim_cell", "tbplas/cython/primitive.pyx:set_ham"]}
{"id": "C35", "title": "Merging cells is a direct sum plus the inter-cell hoppings", "statement": "merge_prim_cell concatenates orbitals in order, shifts each cell's hoppings by its offset and adds inter-cell hoppings between the right blocks; the input cells are left unchanged.", "quantifier": "every list of cells and inter-hoppings", "why_tests_cant": "all combinations.", "anchors": ["tbplas/builder/advanced.py:merge_prim_cell"]}
{"id": "C36", "title": "Fractional and Cartesian coordinates are inverse conversions", "statement": "cart2frac(frac2cart(x)) = x and conversely for every nondegenerate lattice, and the reciprocal vectors satisfy a_i.b_j = 2 pi delta_ij.", "quantifier": "every nondegenerate lattice and all coordinates", "why_tests_cant": "continuum.", "anchors": ["tbplas/base/lattice.py:cart2frac", "tbplas/base/lattice.py:frac2cart", "tbplas/base/lattice.py:gen_reciprocal_vectors"]}
{"id": "C37", "title": "Rotation of coordinates is a rigid motion", "statement": "rotate_coord preserves all distances and orientation, keeps the center and axis fixed, and composing rotations about the same axis adds the angles.", "quantifier": "every set of coordinates, angle, axis and center", "why_tests_cant": "continuum.", "anchors": ["tbplas/base/lattice.py:rotate_coord"]}
{"id": "C38", "title": "Lattice parameters determine the lattice vectors", "statement": "gen_lattice_vectors(a,b,c,alpha,beta,gamma) has the requested lengths and angles (up to components below 1e-15, which are set to zero), it succeeds exactly for admissible angles, and the volume and area functions return |a.(b x c)| and |a x b|.", "quantifier": "all lengths and admissible angles", "why_tests_cant": "continuum.", "anchors": ["tbplas/base/lattice.py:gen_lattice_vectors", "tbplas/base/lattice.py:get_lattice_volume", "tbplas/base/lattice.py:get_lattice_area"]}
{"id": "C39", "title": "k-paths and meshes visit the right points", "statement": "gen_kpath has sum(num)+1 points, hs_index gives the position of each high-symmetry point and consecutive points of one segment are equally spaced; gen_kmesh contains each (i/na,j/nb,k/nc) exactly once.", "quantifier": "every list of high-symmetry points and segment counts; every mesh size", "why_tests_cant": "all lengths.", "anchors": ["tbplas/base/kpoints.py:gen_kpath", "tbplas/base/kpoints.py:gen_kmesh"]}
{"id": "C40", "title": "Slater-Koster integrals are the rotationally invariant two-centre integrals", "statement": "For real parameters, every bond direction and every pair of s/p/d labels the hopping returned by SK.eval equals the rotation-invariant tensor expression; in particular rotating the bond and the orbitals together leaves it unchanged.", "quantifier": "every bond longer than 1e-15, all legal label pairs, all orthogonal rotations, all real V parameters", "why_tests_cant": "continuum of directions; tables with many hand-typed entries.", "anchors": ["tbplas/builder/advanced.py:SK"]}
{"id": "C41", "title": "Slater-Koster hoppings are Hermitian", "statement": "eval(r,i,j) = conj(eval(-r,j,i)) for all labels and real parameters.", "quantifier": "every bond vector, all labels (legal or not), all real V parameters", "why_tests_cant": "continuum.", "anchors": ["tbplas/builder/advanced.py:SK.eval"]}
{"id": "C42", "title": "The three spin-orbit implementations agree", "statement": "SOC, SOCTable and SOCTable2 return the same matrix elements of L.S for all orbital and spin labels (SOCTable up to the rounding of its literals), the matrix is Hermitian, and its p- and d-shell spectra are those of l+1/2 and l-1/2.", "quantifier": "all orbital/spin label pairs (and the polynomial identity for the operator)", "why_tests_cant": "the operator identity quantifies over the whole matrix.", "anchors": ["tbplas/builder/advanced.py:SOC", "tbplas/builder/advanced.py:SOCTable", "tbplas/builder/advanced.py:SOCTable2"]}
{"id": "C43", "title": "Work distribution is a partition", "statement": "Splitting n items (split_range / split_list, both algorithms) over any number of processes assigns each item to exactly one process, keeps order, and sizes differ by at most one.", "quantifier": "every number of items and processes", "why_tests_cant": "all sizes.", "anchors": ["tbplas/utils.py:split_range", "tbplas/utils.py:split_list", "tbplas/parallel.py:MPIEnv.dist_range"]}
{"id": "C44", "title": "Parallel band/state calculation equals the serial one", "statement": "For any number of processes, combining per-process results with all_reduce gives the serial arrays for calc_bands, calc_states and calc_dos.", "quantifier": "every number of processes and k-points", "why_tests_cant": "all process counts.", "anchors": ["tbplas/diagonal/base.py:DiagSolver.calc_bands", "tbplas/diagonal/base.py:DiagSolver.calc_states", "tbplas/parallel.py:MPIEnv.all_reduce"]}
{"id": "C45", "title": "Parallel dynamic polarization equals the serial one", "statement": "Lindhard.calc_dyn_pol_regular / _arbitrary return the same dyn_pol for every number of processes.", "quantifier": "every number of processes, q-points and frequencies", "why_tests_cant": "bugs show only with at least two processes and at least two q-points.", "anchors": ["tbplas/diagonal/lindhard.py:Lindhard.calc_dyn_pol_regular", "tbplas/diagonal/lindhard.py:Lindhard.calc_dyn_pol_arbitrary"]}
{"id": "C46", "title": "Random samples are distributed evenly and averaged correctly", "statement": "The number of random samples is raised to the smallest multiple of the number of processes, every process runs the same number, the per-sample seeds are pairwise distinct over all processes (nonzero seed), and the all_average of per-process means is the mean over all samples.", "quantifier": "every requested number and process count", "why_tests_cant": "all counts.", "anchors": ["tbplas/tbpm/solver.py:Solver._dist_sample", "tbplas/parallel.py:MPIEnv.all_average"]}
{"id": "C47", "title": "k+q mapping on a regular mesh is a permutation landing on k+q", "statement": "For every mesh and integer q, the mapped index points to the mesh point equal to k+q modulo the mesh, and the map is a bijection of the mesh.", "quantifier": "every mesh size and q (negative included)", "why_tests_cant": "all sizes.", "anchors": ["tbplas/cython/lindhard.pyx:build_kmesh_grid", "tbplas/cython/lindhard.pyx:build_kq_map"]}
{"id": "C48", "title": "q-vectors are wrapped into the first cell", "statement": "wrap_frac returns coordinates in [0,1) differing from the input by integers, wrap_grid likewise modulo the mesh, and both terminate.", "quantifier": "all real coordinates", "why_tests_cant": "unbounded loop.", "anchors": ["tbplas/diagonal/lindhard.py:Lindhard.wrap_frac", "tbplas/diagonal/lindhard.py:Lindhard.wrap_grid"]}
{"id": "C49", "title": "Regular and arbitrary q algorithms agree on mesh points", "statement": "For q on the mesh, calc_dyn_pol_arbitrary with convention-2 eigenpairs agrees with calc_dyn_pol_regular whenever the diagonalisation is a function of the matrix.", "quantifier": "every mesh and grid q", "why_tests_cant": "all sizes.", "anchors": ["tbplas/cython/lindhard.pyx:prod_dp", "tbplas/cython/lindhard.pyx:prod_dp_arb"]}
{"id": "C50", "title": "The velocity matrix is the k-derivative of the Hamiltonian", "statement": "The matrix used for AC conductivity is, element by element, the derivative of the convention-1 Bloch Hamiltonian with respect to the Cartesian k component, and is Hermitian.", "quantifier": "every hopping list and k", "why_tests_cant": "continuum.", "anchors": ["tbplas/cython/lindhard.pyx:prod_ac", "tbplas/cython/primitive.pyx:set_ham"]}
{"id": "C51", "title": "Wilson-loop phases do not depend on the eigenvector gauge", "statement": "Multiplying the occupied eigenvectors at every k-point of the loop by an arbitrary unitary (in particular arbitrary phases) leaves the characteristic polynomial of the D matrix, hence the phases, unchanged.", "quantifier": "every loop length, number of bands, every unitary gauge", "why_tests_cant": "the eigensolver's gauge is arbitrary and differs between platforms.", "anchors": ["tbplas/diagonal/z2.py:Z2.calc_phases", "tbplas/diagonal/z2.py:Z2._eval_f_mat"]}
{"id": "C52", "title": "Crossing counts have the parity of the end points", "statement": "The number of crossings counted for a band is odd exactly when the first and last phases lie on opposite sides of the reference.", "quantifier": "every phase sequence and reference", "why_tests_cant": "all sequences.", "anchors": ["tbplas/diagonal/z2.py:Z2.count_crossing"]}
{"id": "C53", "title": "Reordering phases permutes them", "statement": "reorder_phases only permutes each row of phases (up to multiples of 2 pi).", "quantifier": "every phase table and parameters", "why_tests_cant": "all tables.", "anchors": ["tbplas/diagonal/z2.py:Z2.reorder_phases"]}
{"id": "C54", "title": "Chebyshev time propagation evaluates the Chebyshev series", "statement": "One propagation step, implemented with three rotating buffers, returns J_0 psi + 2 sum_m (-i)^m J_m T_m(H) psi for the supplied coefficients, for every operator and vector.", "quantifier": "every Hamiltonian, vector and coefficient list of length at least 3", "why_tests_cant": "all lengths and the buffer aliasing.", "anchors": ["tbplas/fortran/propagation.f90:cheb_wf_timestep", "tbplas/fortran/csr.F90:amxpy"]}
{"id": "C55", "title": "The Fermi operator evaluates its Chebyshev series", "statement": "Fermi(...) returns sum_m c_m T_m(H) psi with the prescribed factor on c_0 for every coefficient list, with the rotating buffers.", "quantifier": "every Hamiltonian, vector and coefficient list", "why_tests_cant": "all lengths.", "anchors": ["tbplas/fortran/propagation.f90:Fermi"]}
{"id": "C56", "title": "The Haydock recursion produces a Lanczos chain", "statement": "The Haydock coefficients come from an orthonormal sequence of vectors satisfying the three-term recurrence with real diagonal coefficients, as long as no off-diagonal coefficient vanishes.", "quantifier": "every Hermitian operator, start vector and depth", "why_tests_cant": "induction over the depth.", "anchors": ["tbplas/fortran/propagation.f90:Haydock_coef"]}
{"id": "C57", "title": "The local density of states from the recursion is non-negative", "statement": "For real Haydock coefficients and positive broadening, -Im G/pi >= 0 at every energy, for every depth.", "quantifier": "all coefficient sequences, energies, broadenings", "why_tests_cant": "induction over depth, continuum.", "anchors": ["tbplas/fortran/funcs.f90:green_function", "tbplas/fortran/tbpm.f90:ldos_haydock"]}
{"id": "C58", "title": "Time-dependent wave functions are logged at the requested steps", "statement": "The snapshots returned by calc_psi_t are U^t psi_0 for each requested time step.", "quantifier": "every list of requested times and number of steps", "why_tests_cant": "pointer logic over all lists.", "anchors": ["tbplas/fortran/tbpm.f90:tbpm_psi_t", "tbplas/tbpm/solver.py:Solver.calc_psi_t"]}
{"id": "C59", "title": "The Bessel series is the convergent prefix", "statement": "The series used for propagation is J_0..J_{m-1} for the first m at which two consecutive Bessel functions are below the precision; otherwise an error is raised.", "quantifier": "every time step, precision and maximum", "why_tests_cant": "all sequences.", "anchors": ["tbplas/tbpm/solver.py:Solver._get_bessel_series"]}
{"id": "C60", "title": "Norm divergence is checked periodically", "statement": "The wave-function norm is checked every wfn_check_steps steps, as documented.", "quantifier": "every number of time steps and check interval", "why_tests_cant": "all step counts.", "anchors": ["tbplas/fortran/tbpm.f90", "tbplas/tbpm/config.py:Config"]}
{"id": "C61", "title": "DOS from the correlation function is normalised and uses every correlation value", "statement": "calc_dos fills all 2*n slots of the symmetrised correlation array exactly once and returns a DOS whose integral over the energy window is 1 (2 with spin).", "quantifier": "every correlation function with nonzero spectrum sum", "why_tests_cant": "all lengths.", "anchors": ["tbplas/tbpm/analysis.py:Analyzer.calc_dos"]}
{"id": "C62", "title": "The Fermi-Dirac function is evaluated without overflow and correctly", "statement": "Both branches of the overflow-safe Fermi function equal 1/(1+exp(beta(E-mu))), the result is in (0,1), antisymmetric about mu and decreasing for beta>0; the exponent passed to exp is never positive.", "quantifier": "all real energies, chemical potentials and temperatures", "why_tests_cant": "continuum.", "anchors": ["tbplas/fortran/funcs.f90:Fermi_dist"]}
{"id": "C63", "title": "The built-in FFT computes the discrete Fourier transform", "statement": "The in-place radix-2 transform returns the DFT for every power-of-two length.", "quantifier": "every power-of-two length and every input vector", "why_tests_cant": "all lengths.", "anchors": ["tbplas/fortran/fft.F90:fft1d_inplace"]}
{"id": "C64", "title": "Kubo-Bastin moments are Chebyshev moments", "statement": "The moment matrix accumulated for the Hall conductivity is <psi| J T_m(H) J T_n(H)|psi> for every m,n below the kernel size.", "quantifier": "every operator, vector and kernel size", "why_tests_cant": "all sizes.", "anchors": ["tbplas/fortran/tbpm.f90:tbpm_kbdc"]}
{"id": "C65", "title": "AC conductivity does not depend on the unset initial correlation value", "statement": "calc_ac_cond does not depend on the correlation value at t=0 (which the solver never sets).", "quantifier": "every correlation array", "why_tests_cant": "all arrays.", "anchors": ["tbplas/tbpm/analysis.py:Analyzer.calc_ac_cond", "tbplas/fortran/tbpm.f90:tbpm_accond"]}
{"id": "C66", "title": "Wannier90 import distributes hoppings over Wigner-Seitz images", "statement": "apply_wsvec divides each hopping by its degeneracy and assigns it to all equivalent cells, so that the total hopping amplitude between two orbitals is conserved.", "quantifier": "every hopping and wsvec table", "why_tests_cant": "all tables.", "anchors": ["tbplas/adapter/wannier90.py:apply_wsvec"]}
{"id": "C67", "title": "gen_seeds returns the requested number of distinct seeds", "statement": "gen_seeds(n) returns n pairwise distinct non-negative seeds.", "quantifier": "every n and random source", "why_tests_cant": "depends on the random stream.", "anchors": ["tbplas/utils.py:gen_seeds"]}
{"id": "C68", "title": "Spin texture values are bounded and the band projections normalised", "statement": "For a normalised state the spin expectation values satisfy sx^2+sy^2+sz^2 <= 1 and are real; the projection on all orbitals is 1.", "quantifier": "every state vector", "why_tests_cant": "continuum.", "anchors": ["tbplas/diagonal/magnetic.py:SpinTexture.eval", "tbplas/diagonal/base.py:DiagSolver._calc_proj"]}
{"id": "C69", "title": "Sparse matrix-vector kernels compute the mathematical operation", "statement": "amv, amxpy and amxpby return a*H*x, a*H*x + y and a*H*x + b*y of the matrix represented by the CSR arrays.", "quantifier": "every CSR matrix, vectors and scalars", "why_tests_cant": "all sizes.", "anchors": ["tbplas/fortran/csr.F90"]}
{"id": "C70", "title": "Neighbour search finds every pair exactly once", "statement": "find_neighbors returns every ordered pair of orbitals (over the scanned cells) whose distance is positive and within the cutoff exactly once, with its displacement and distance, sorted by distance; between the orbitals of one cell the opposite pair is returned as well, with the opposite displacement.", "quantifier": "every cell, search range and cutoff", "why_tests_cant": "all geometries.", "anchors": ["tbplas/builder/advanced.py:find_neighbors"]}
{"id": "C71", "title": "The tables of a supercell match its vacancies after every history", "statement": "After any history of calls on a supercell and its primitive cell, a successful synchronisation leaves the vacancy index list and the orbital table equal to those computed from the current vacancies and the current primitive cell, and every vacancy is legal.", "quantifier": "every history of vacancy, modifier, trim, lock and synchronisation calls, failing ones included", "why_tests_cant": "staleness shows only for particular call orders.", "anchors": ["tbplas/builder/super.py:OrbitalSet.sync_array", "tbplas/builder/super.py:OrbitalSet.add_vacancies", "tbplas/builder/super.py:OrbitalSet.set_vacancies", "tbplas/builder/super.py:OrbitalSet._get_attr_hash"]}
{"id": "C72", "title": "Modifier hoppings keep referring to the same orbitals", "statement": "A hopping added to a supercell between two orbitals keeps connecting these orbitals (or disappears with them) when vacancies are added or the supercell is trimmed.", "quantifier": "every order of add_hopping, add_vacancies and trim", "why_tests_cant": "depends on the order of calls.", "anchors": ["tbplas/builder/super.py:SuperCell.add_hopping", "tbplas/builder/super.py:OrbitalSet.add_vacancies", "tbplas/builder/super.py:SuperCell.trim"]}
{"id": "C73", "title": "Distances along a k-path", "statement": "gen_kdist returns one number per k-point, starting at zero and non-decreasing, whose increments are the Euclidean distances of consecutive k-points in Cartesian reciprocal coordinates.", "quantifier": "every non-degenerate lattice and every list of k-points", "why_tests_cant": "all paths.", "anchors": ["tbplas/base/kpoints.py:gen_kdist"]}
{"id": "C74", "title": "Changing the lattice keeps the chosen coordinates", "statement": "A successful reset_lattice installs the given lattice vectors and origin and keeps energies, labels and hoppings; with fix_orb the Cartesian positions of all orbitals are unchanged, without it the fractional ones are.", "quantifier": "every history of calls before, every lattice, origin and unit", "why_tests_cant": "all lattices and histories.", "anchors": ["tbplas/builder/primitive.py:PrimitiveCell.reset_lattice"]}
{"id": "C75", "title": "InterHopping behaves as a plain map", "statement": "For every history of calls on an inter-cell hopping object, add_hopping sets exactly the named (R,i,j) entry (no conjugate partner), remove_hopping clears exactly it, remove_rn clears R but not -R, remove_orbitals deletes and renumbers, purge changes nothing, and a locked object ignores add_hopping.", "quantifier": "every history of calls, malformed cell indices included", "why_tests_cant": "unbounded histories.", "anchors": ["tbplas/builder/base.py:InterHopping", "tbplas/builder/base.py:IntraHopping.remove_hopping", "tbplas/builder/base.py:IntraHopping.remove_orbitals"]}
{"id": "C76", "title": "The Fortran and Cython backends agree", "statement": "For every model, mesh, list of q-points, frequency list and number of processes, the use_fortran flag does not influence the result of calc_dyn_pol_regular, calc_dyn_pol_arbitrary and calc_ac_cond: the Fortran kernels (1-based, transposed arrays) and the Cython kernels return the same numbers or fail in the same way.", "quantifier": "all models, meshes, q-points, frequencies, processes", "why_tests_cant": "two implementations with different index conventions must agree on every input; the test suite compares none.", "anchors": ["tbplas/cython/lindhard.pyx", "tbplas/fortran/lindhard.f90", "tbplas/diagonal/lindhard.py:Lindhard"]}
{"id": "C77", "title": "AC conductivity is the Kubo-Greenwood sum, for any number of processes", "statement": "calc_ac_cond returns on every process the Kubo-Greenwood sum over all k-points of the mesh and all pairs of states more than 1e-7 eV apart, with the derivative of the Bloch Hamiltonian as velocity operator, divided by the area (2d) or volume (3d) of the cell times the number of k-points, whatever the number of processes up to the number of k-points; with more processes it raises ValueError.", "quantifier": "all models, meshes, frequencies, components, numbers of processes", "why_tests_cant": "depends on the distribution of k-points over processes and on the normalisation, for all of them.", "anchors": ["tbplas/diagonal/lindhard.py:Lindhard.calc_ac_cond", "tbplas/cython/lindhard.pyx:prod_ac", "tbplas/cython/lindhard.pyx:ac_cond"]}
{"id": "C78", "title": "Atomic orbitals obey the angular momentum algebra", "statement": "For every orbital built by assigning coefficients on |l,m>, l+ , l- and lz act by the textbook formulas, l+ and l- are adjoint in the inner product, [l+,l-] = 2 lz, the square of the angular momentum is l(l+1), and assignments with |m| > l are refused.", "quantifier": "all l, all coefficient assignments, all pairs of orbitals", "why_tests_cant": "l and the number of components are unbounded.", "anchors": ["tbplas/builder/advanced.py:AtomicOrbital"]}
{"id": "C79", "title": "The backward propagation step is the adjoint of the forward one", "statement": "For a Hermitian Hamiltonian <U_back x|y> = <x|U_fwd y>; an eigenstate of the Hamiltonian is only multiplied by the value of the Chebyshev series at its eigenvalue, and the step commutes with the Hamiltonian.", "quantifier": "every Hermitian sparse matrix, coefficient series, pair of vectors, and thread schedule", "why_tests_cant": "ranges over all matrices, vectors and schedules of parallel loops", "anchors": ["tbplas/fortran/propagation.f90:cheb_wf_timestep"]}
{"id": "C80", "title": "Random initial states are normalised", "statement": "random_state returns a state of norm 1 for every sequence of random numbers that is not identically zero; a state spread over distinct sites keeps its norm.", "quantifier": "every number of orbitals, every sequence of random numbers in [0,1), every list of sites", "why_tests_cant": "tests draw a few seeds; the property ranges over all draws", "anchors": ["tbplas/fortran/random.f90:random_state", "tbplas/fortran/tbpm.f90:ldos_haydock"]}
{"id": "C81", "title": "DOS and LDOS correlation functions are sample means of <psi|U^t|psi>", "statement": "On every process calc_corr_dos (calc_corr_ldos) returns, for every time step t, the mean over all samples of <psi|U^t|psi>, with U the Chebyshev propagator of the Hamiltonian and psi the random state (restricted to the sites and normalised); the result depends neither on the number of processes nor on thread schedules.", "quantifier": "every Hamiltonian, Bessel series, seed, number of samples, processes and steps, every schedule of the threads", "why_tests_cant": "covers all schedules, ranks and step counts; numerical tests compare one noisy curve", "anchors": ["tbplas/tbpm/solver.py:calc_corr_dos", "tbplas/tbpm/solver.py:calc_corr_ldos", "tbplas/fortran/tbpm.f90:tbpm_dos", "tbplas/fortran/tbpm.f90:tbpm_ldos"]}
{"id": "C82", "title": "Quasi-eigenstates are normalised probabilities of the filtered states", "statement": "calc_quasi_eigenstates returns for each energy the mean over samples of |F_E psi|^2 normalised to one, with F_E the windowed Fourier filter of the propagation; entries are non-negative and sum to 1.", "quantifier": "every Hamiltonian, list of energies, seed, number of samples, processes and steps", "why_tests_cant": "a property of all inputs; tests only look at pictures of a few states", "anchors": ["tbplas/tbpm/solver.py:calc_quasi_eigenstates", "tbplas/fortran/tbpm.f90:tbpm_eigenstates"]}
{"id": "C83", "title": "AC and polarization correlation functions have the documented form", "statement": "calc_corr_ac_cond returns the means of <U^(t-1) f psi|J_a U^(t-1)(1-f) J_b psi> for the four components and calc_corr_dyn_pol the means of the imaginary parts of <U^(t-1) f psi|rho_q U^(t-1)(1-f) rho_-q psi>, for every process, component, wave vector and time step.", "quantifier": "every Hamiltonian, Fermi series, wave vector list, seed, number of samples, processes and steps", "why_tests_cant": "swapped components or off-by-one times look plausible in averaged spectra", "anchors": ["tbplas/tbpm/solver.py:calc_corr_ac_cond", "tbplas/tbpm/solver.py:calc_corr_dyn_pol", "tbplas/fortran/tbpm.f90:tbpm_accond", "tbplas/fortran/tbpm.f90:tbpm_dyn_pol"]}
{"id": "C84", "title": "The current operator of a sample is Hermitian", "statement": "The current operators which TBPM builds from the CSR Hamiltonian and displacements of a sample are i*s*(V - V^dagger) with V the hopping times displacement of the hopping terms, hence Hermitian; without periodic images they equal i*s*[H, x].", "quantifier": "every sample, both CSR builders, sorted or unsorted columns, both directions", "why_tests_cant": "relies on the pairing of every CSR entry with its conjugate, for all samples", "anchors": ["tbplas/builder/sample.py:build_ham_dxy", "tbplas/fortran/funcs.f90:current_coefficient"]}
{"id": "C85", "title": "DC correlation functions have the documented form", "statement": "calc_corr_dc_cond returns the means of <psi|U^t psi> and of <U^(t-1) J_a psi|J_a F_E psi>/|<psi|F_E psi>| for the energies E of the grid inside the limits, in order.", "quantifier": "every Hamiltonian, energy window, seed, number of samples, processes and steps", "why_tests_cant": "index selection and normalisation must hold for all windows", "anchors": ["tbplas/tbpm/solver.py:calc_corr_dc_cond", "tbplas/fortran/tbpm.f90:tbpm_dccond"]}
{"id": "C86", "title": "Optical conductivity is the Kubo integral of the correlation function", "statement": "calc_ac_cond returns, on every process, at each frequency i*en_range/n the Kubo sum over the imaginary part of the current correlation with the time step of the solver, 0 at zero frequency, and as imaginary part the Hilbert transform of the even continuation of the real part.", "quantifier": "every correlation array, window function, length, sample and number of processes", "why_tests_cant": "all lengths and all arrays.", "anchors": ["tbplas/tbpm/analysis.py:Analyzer.calc_ac_cond"]}
{"id": "C87", "title": "Polarization and dielectric function follow their formulas", "statement": "calc_dyn_pol is the windowed Fourier integral of the density correlation; calc_epsilon is 1 - V(q) Pi with the Coulomb interaction of the dimension and 1 at q=0; calc_epsilon_q0 is refused exactly if the dimension is not 3.", "quantifier": "every correlation array, list of q-points, dimension and number of processes", "why_tests_cant": "all arrays.", "anchors": ["tbplas/tbpm/analysis.py:Analyzer.calc_dyn_pol", "tbplas/tbpm/analysis.py:Analyzer.calc_epsilon", "tbplas/tbpm/analysis.py:Analyzer.calc_epsilon_q0"]}
{"id": "C88", "title": "DC conductivity and diffusion coefficient use the selected energies and the DOS at them", "statement": "calc_dc_cond returns exactly the energies within the limits in increasing order and at each of them the DOS times the windowed time integral of the correlation with that energy; calc_diff_coeff is the running trapezoidal integral of the same signal.", "quantifier": "every pair of correlation arrays, energy limits, window functions and number of processes", "why_tests_cant": "all arrays and limits.", "anchors": ["tbplas/tbpm/analysis.py:Analyzer.calc_dc_cond", "tbplas/tbpm/analysis.py:Analyzer.calc_diff_coeff"]}
{"id": "C89", "title": "Hall conductivity is the Kubo-Bastin sum, independent of the threads", "statement": "calc_hall_cond returns the Kubo-Bastin sum of the moments with the Fermi function, in the requested unit, whatever the order in which threads add their contributions; for Hermitian moments the sum is real before the real part is taken.", "quantifier": "every moment matrix, list of chemical potentials, number of angles, thread schedule and number of processes", "why_tests_cant": "all sizes and schedules.", "anchors": ["tbplas/tbpm/analysis.py:Analyzer.calc_hall_cond", "tbplas/fortran/analysis.f90:cond_from_trace", "tbplas/fortran/kpm.f90:get_gamma_mn"]}
{"id": "C90", "title": "Correcting for spin doubles every spectrum and response", "statement": "With correct_spin the DOS, optical conductivity, polarization, DC conductivity and Hall conductivity are twice those without.", "quantifier": "every input of the analysis functions", "why_tests_cant": "all inputs.", "anchors": ["tbplas/tbpm/analysis.py:Analyzer"]}
{"id": "C91", "title": "The Fermi operator is expanded with the right Chebyshev coefficients", "statement": "get_Fermi_cheb_coef returns the Jackson-damped Chebyshev coefficients of the Fermi function (or of its complement) sampled at the Fourier points; the two series add up to 1; the series is cut at the first pair of small coefficients, and the number of coefficients does not depend on uninitialised memory.", "quantifier": "every power-of-two number of points, temperature, chemical potential, precision and thread schedule", "why_tests_cant": "all lengths and reals.", "anchors": ["tbplas/fortran/funcs.f90:get_Fermi_cheb_coef", "tbplas/fortran/fft.F90:fft1d_inplace", "tbplas/fortran/kpm.f90:jackson_kernel"]}
{"id": "C92", "title": "Wannier90 files are read back exactly", "statement": "For files in the Wannier90 format the readers return exactly the data written in them: lattice vectors in the unit of the file, Wannier centres, every hopping term with its cell and orbital indices counted from zero, and every block of the wsvec table; a truncated wsvec table is refused.", "quantifier": "every number of lattice cells, terms, blocks and orbitals, and every value", "why_tests_cant": "all file lengths and layouts.", "anchors": ["tbplas/adapter/wannier90.py:read_lat_vec", "tbplas/adapter/wannier90.py:read_orb_pos", "tbplas/adapter/wannier90.py:read_hop", "tbplas/adapter/wannier90.py:read_wsvec"]}
{"id": "C93", "title": "wan2pc builds the cell of the Wannier90 table", "statement": "The primitive cell returned by wan2pc has the lattice vectors and Wannier centres of the files (in nm), the on-site energies of the table, and exactly those hopping terms of a Hermitian table which reach the cutoff.", "quantifier": "every set of well-formed files, cutoff and Hermitian table", "why_tests_cant": "all tables.", "anchors": ["tbplas/adapter/wannier90.py:wan2pc"]}
{"id": "C94", "title": "The spin texture follows the k-grid and the cell", "statement": "After any history of changing the k-grid or the cell and of evaluations, failing ones included, SpinTexture.eval returns on every process the expectation values of the Pauli matrix in the eigenstates of the current cell on the current k-grid.", "quantifier": "every history, cell, k-grid, order of the orbitals, component and number of processes", "why_tests_cant": "staleness shows only for particular call orders.", "anchors": ["tbplas/diagonal/magnetic.py:SpinTexture.eval", "tbplas/diagonal/magnetic.py:SpinTexture.update_states"]}
{"id": "C95", "title": "A reshaped cell describes the same crystal", "statement": "reshape_prim_cell(cell, L) with an integer matrix L returns a cell with lattice L*lat and |det L| times as many orbitals; every orbital of the crystal is the image of exactly one new orbital, at the same place with the same energy and label; the hopping term between any two sites is the one of the original crystal; make_hetero_layer with the lattice L*lat does the same; a singular L is refused.", "quantifier": "every cell reached by any history, integer matrix, tolerance and offset delta", "why_tests_cant": "the search range is computed from L; small cells never exceed it.", "anchors": ["tbplas/builder/advanced.py:reshape_prim_cell", "tbplas/builder/advanced.py:make_hetero_layer"]}
{"id": "C96", "title": "Reshaping folds the band structure", "statement": "Every eigenstate of the original cell at k is, up to a phase on each orbital, an eigenstate of the reshaped cell at K = L k (modulo 1) with the same energy, in both conventions; these states exhaust the spectrum of the reshaped cell, with multiplicities.", "quantifier": "every cell, integer matrix, Bloch vector, convention and eigenstate", "why_tests_cant": "all matrices and all k.", "anchors": ["tbplas/builder/advanced.py:reshape_prim_cell", "tbplas/builder/primitive.py:PrimitiveCell.set_ham_dense"]}
{"id": "C97", "title": "Spiralling a cell is a rigid motion", "statement": "spiral_prim_cell rotates lattice vectors, origin and orbitals about the z axis through the centre and displaces the orbitals along z; energies, labels, hopping terms and all distances between orbitals are kept.", "quantifier": "every unlocked cell, angle, centre and shift", "why_tests_cant": "all reals.", "anchors": ["tbplas/builder/advanced.py:spiral_prim_cell"]}
{"id": "C98", "title": "Graphene cells are graphene", "statement": "make_graphene_diamond returns a honeycomb crystal whose coupled sites are exactly the nearest neighbours (distance 0.246/sqrt(3) nm); its bands are +-|t||1+exp(2 pi i k_a)+exp(2 pi i k_b)| and touch exactly at (1/3,2/3) and (2/3,1/3) modulo reciprocal lattice vectors. make_graphene_rect, by either method, describes the same crystal.", "quantifier": "every nonzero c, every t, every Bloch wave vector, every pair of sites of the infinite crystal", "why_tests_cant": "infinitely many k-points, sites and parameter values.", "anchors": ["tbplas/materials/graphene.py:make_graphene_diamond", "tbplas/materials/graphene.py:make_graphene_rect"]}
{"id": "C99", "title": "The graphene cell with spin-orbit coupling is the Kane-Mele model and has Kramers pairs", "statement": "make_graphene_soc returns the Kane-Mele Hamiltonian with Rashba coupling: nearest neighbours at d have t + i lambda_R (sigma_x d_y - sigma_y d_x), second neighbours i lambda_so nu sigma_z with nu the orientation of the path through the common neighbour, sublattice energy +-lambda_nu, nothing else. For every cell invariant under time reversal the states at -k are the time-reversed states at k, and where 2k is a reciprocal lattice vector every state has an orthogonal partner of equal energy.", "quantifier": "both phases, all pairs of sites; all time-reversal-invariant cells of any size, all Bloch vectors, both phase conventions, all states", "why_tests_cant": "infinitely many cells, k-points and site pairs.", "anchors": ["tbplas/materials/graphene.py:make_graphene_soc", "tbplas/builder/primitive.py:PrimitiveCell.add_hopping_dict", "tbplas/cython/primitive.pyx:set_ham"]}
{"id": "C100", "title": "Symmetries of a crystal are symmetries of its bands; black phosphorus is the ten-parameter model", "statement": "If a lattice transformation with a permutation of the orbitals maps the sites of a cell to sites, and keeps energies and hopping terms, then the bands at k and at the transformed k agree with multiplicities. make_black_phosphorus returns the ten-parameter model of Phys. Rev. B 92, 085419: the amplitude between two sites depends only on the absolute values of the components of their distance and is the one of the published table, zero for all other pairs; its bands are even in every component of k.", "quantifier": "all cells of any size, all integer transformations, all Bloch vectors, both conventions; for black phosphorus all lengths of the c axis and all pairs of sites", "why_tests_cant": "infinitely many cells, k-points and site pairs; one mistyped cell index of the 44 calls breaks the symmetry only away from the tested points.", "anchors": ["tbplas/materials/phosphorene.py:make_black_phosphorus", "tbplas/builder/primitive.py:PrimitiveCell.add_hopping", "tbplas/cython/primitive.pyx:set_ham"]}
{"id": "C101", "title": "Symmetries that mix orbitals, and antiunitary symmetries, are symmetries of the bands", "statement": "If a lattice transformation together with any invertible mixing of the orbitals commutes with the Hamiltonian of the crystal, then the bands at k and the transformed k agree with multiplicities. The same holds for antiunitary symmetries, which also invert k; a crystal with real hoppings has the same energies at k and -k. If the crystal has an antiunitary symmetry whose square is -1 (time reversal of spinful electrons, alone or with inversion), then at every k that it maps to itself each state has an orthogonal partner with the same energy.", "quantifier": "all cells of any size, all integer transformations, all mixing matrices, all Bloch vectors, both conventions, all states", "why_tests_cant": "infinitely many cells, symmetries and k-points; degeneracies at sampled points do not show that they hold at all points.", "anchors": ["tbplas/builder/primitive.py:PrimitiveCell.add_hopping", "tbplas/cython/primitive.pyx:set_ham"]}
{"id": "C102", "title": "HopDict and add_hopping_dict: the crystal gets exactly the last written nonzero elements", "statement": "After any history of matrix and element assignments, including refused ones, each element of a HopDict has the value last written. add_hopping_dict then sets every hopping whose element, or whose conjugate partner, is nonzero to that value and changes no other hopping; a dictionary with a clear on-site element, or a locked cell, is refused without any change.", "quantifier": "all numbers of orbitals, all histories of assignments with any cell indices and matrices, all prior states of the cell", "why_tests_cant": "histories are unbounded, and the refused cases differ only after particular orders of assignments.", "anchors": ["tbplas/builder/base.py:HopDict", "tbplas/builder/primitive.py:PrimitiveCell.add_hopping_dict"]}
{"id": "C103", "title": "make_antimonene is the fifteen-parameter model with all symmetries of the crystal", "statement": "make_antimonene returns the crystal whose amplitudes are generated from one bond for each of the fifteen published parameters by threefold rotation, mirror and inversion, which act on the sites as these isometries; its bands have these symmetries. With spin-orbit coupling of any strength the amplitudes are those without coupling, diagonal in the spin, plus the on-site matrix of lambda L.S, and every state at every k has an orthogonal partner of the same energy.", "quantifier": "all coupling strengths, all lengths of the c axis, all pairs of sites, all Bloch vectors, both conventions, all states", "why_tests_cant": "one mistyped cell index of the 186 assignments, or one sign of the 36 coupling elements, breaks the symmetry only away from tested points.", "anchors": ["tbplas/materials/antimonene.py:make_antimonene", "tbplas/builder/base.py:HopDict", "tbplas/builder/primitive.py:PrimitiveCell.add_hopping_dict"]}
{"id": "C104", "title": "Bands with an overlap are the solutions of the general eigenvalue problem", "statement": "An overlap made from a model has its orbital positions, on-site overlap one and no off-site overlap; after any history of calls its matrix is Hermitian and the Bloch sum of the overlaps shown. Bands calculated with it are in descending order and are exactly the roots of det(E S(k) - H(k)) with multiplicities, the same in both conventions, for k-points that differ by reciprocal lattice vectors, for any eigensolver that keeps LAPACK's promise and on any number of processes. (The projections of calc_bands sum to diagonal elements of the inverse of S, not to one; an overlap without off-site terms is refused; moving an orbital of the model afterwards makes the two conventions disagree.)", "quantifier": "all models and overlaps, all histories, all Bloch vectors, both conventions, all eigensolvers meeting the contract, all numbers of processes", "why_tests_cant": "the phases of S and H must agree at every k and for every position; a test checks a few k-points and one convention.", "anchors": ["tbplas/builder/overlap.py:Overlap", "tbplas/diagonal/base.py:DiagSolver._diag_ham_dense", "tbplas/diagonal/base.py:DiagSolver.calc_bands", "tbplas/diagonal/base.py:DiagSolver._calc_proj"]}
{"id": "C105", "title": "A timer reports exactly the time of its intervals; a progress bar reports at the multiples of its unit", "statement": "After any history of tic, toc, report and reset calls, report_total_time prints, for the slots used since the last reset in the order of their first use, the sum of the lengths of all their tic/toc intervals since then, and report_time the length of the last one; with a clock that does not run backwards no time is counted twice. toc raises exactly when no interval of the slot is open and then changes nothing; a report with an open interval raises for the first such slot and changes nothing. A progress bar reports exactly the counts which are multiples of tasks // scales, at least as many as there are scales and fewer than twice as many, and the last one (100 per cent) exactly when tasks // scales divides tasks.", "quantifier": "all histories of calls, all slots, all clock readings; all numbers of tasks, scales and counts", "why_tests_cant": "the pairing of tic and toc depends on the whole history, including repeated tics, failed tocs and resets.", "anchors": ["tbplas/utils.py:Timer", "tbplas/utils.py:ProgressBar"]}
{"id": "C106", "title": "Misspelled parameters of a calculation are found", "statement": "Whatever a user does to a new Config, creating a solver or analyzer with it raises exactly when some key of its parameter groups is not the name of a parameter. (True for generic, LDOS, dyn_pol and dckb; the groups DC_conductivity and quasi_eigenstates are never checked, and a configuration read from a file is never refused whatever keys it has.) Reading a saved configuration restores all parameters; set_temperature(T) makes beta the inverse of kB T and changes nothing else. A parameter the user has not touched has the documented default (except Bessel_max, documented as 100, which is 250).", "quantifier": "all histories of edits, all keys and values, all files", "why_tests_cant": "a check that compares two key sets goes wrong only for particular groups and histories.", "anchors": ["tbplas/tbpm/config.py:Config", "tbplas/tbpm/config.py:Config.check_params", "tbplas/tbpm/config.py:read_config", "tbplas/tbpm/solver.py:Solver.__init__"]}
{"id": "C107", "title": "Propagated states and correlation functions are those of the exact time evolution, up to a stated error", "statement": "For every sample with a rescaled Hermitian Hamiltonian whose spectrum lies in [-1, 1], one propagation step of the solver, forwards or backwards, differs from exp(-+i H dt) applied to the state by at most Bessel_precision (x + 2) times its norm, where x is the scaled time step (pi by default); errors of t steps accumulate to at most (1 + that)^t - 1. The rows of calc_psi_t and the correlation functions of DOS and LDOS are within this of the exact ones. With the default configuration the Bessel series is always found, the norm check never stops a DOS run, and the DOS correlation function is exact to 6e-11.", "quantifier": "all samples, states, time steps of at least 1 in scaled units, precisions small for the step, schedules, numbers of processes and samples", "why_tests_cant": "the truncation rule of the series looks only at two consecutive Bessel functions; that nothing large comes after them for any time step, spectrum and state is an analytical fact.", "anchors": ["tbplas/tbpm/solver.py:Solver._get_bessel_series", "tbplas/tbpm/solver.py:Solver._get_time_step", "tbplas/tbpm/solver.py:Solver.calc_psi_t", "tbplas/tbpm/solver.py:Solver.calc_corr_dos", "tbplas/fortran/propagation.f90:cheb_wf_timestep"]}
{"id": "C108", "title": "The Fermi operator of the propagation method is the Fermi function of the Hamiltonian, up to a stated error", "statement": "For every inverse temperature, chemical potential and power-of-two number of points (at least 8), the Chebyshev series computed for the Fermi function or its complement has values between 0 and 1 on the whole spectrum and differs from the exact function by at most beta/4 sin(2 pi/nr_Fermi_fft_steps), plus the coefficients dropped by the truncation. Applied to a state, for every rescaled Hermitian Hamiltonian, the operator differs from (1 + exp(beta(H - mu)))^-1 (or one minus it) by at most this times the norm of the state; on an eigenstate it acts as a number with the same error.", "quantifier": "all Hamiltonians, states, temperatures, chemical potentials, precisions, powers of two and schedules", "why_tests_cant": "uniform convergence of the damped series over the whole spectrum, for every temperature and number of points, is an analytical fact about the Jackson kernel.", "anchors": ["tbplas/fortran/funcs.f90:get_Fermi_cheb_coef", "tbplas/fortran/kpm.f90:jackson_kernel", "tbplas/fortran/propagation.f90:Fermi", "tbplas/tbpm/config.py"]}
{"id": "C109", "title": "Correlation functions of the optical conductivity and the dynamical polarization are the exact ones, up to a stated error", "statement": "For every sample with a rescaled Hermitian Hamiltonian with spectrum in [-1, 1] and normalised initial states, the correlation functions at step t are the means over the samples of <exp(-iHs) f psi | A exp(-iHs) (1-f) B psi> with the exact exponential and the exact Fermi function, s = (t-1) time steps and A, B the current operators (or the densities exp(iqr), exp(-iqr), taking the imaginary part), up to the combined errors of t-1 steps and of the two Fermi operators, proportional to the square of the norm of the currents. The norm check stops neither calculation when the accumulated error is within the threshold.", "quantifier": "all samples, states, temperatures, q-points, time steps, precisions, schedules, numbers of processes and samples", "why_tests_cant": "the accuracy must hold for every spectrum and every random state.", "anchors": ["tbplas/tbpm/solver.py:Solver.calc_corr_ac_cond", "tbplas/tbpm/solver.py:Solver.calc_corr_dyn_pol", "tbplas/fortran/tbpm.f90:tbpm_accond", "tbplas/fortran/tbpm.f90:tbpm_dyn_pol"]}
{"id": "C110", "title": "make_tmdc is the published eleven-orbital model with all symmetries of the monolayer", "statement": "For MoS2, MoSe2, WS2 and WSe2 make_tmdc returns a crystal of eleven labelled orbitals at the sites of the monolayer, in which each of the 44 published parameters is the matrix element between the symmetrised orbitals it is published for, and which is invariant under the threefold rotation and the two mirrors of the monolayer, the orbitals transforming as d and p orbitals of their names; its bands have these symmetries and are even in k. Every other name is refused with an error.", "quantifier": "all material names, all cells and pairs of orbitals, all Bloch vectors, both conventions", "why_tests_cant": "a wrong sign or a swapped pair among the several hundred generated matrix elements changes the bands only slightly, and only at general k-points.", "anchors": ["tbplas/materials/xs2.py:make_tmdc", "tbplas/materials/xs2.py:gen_hop_dict"]}
{"id": "C111", "title": "Slater-Koster models have the symmetries of their atoms", "statement": "A model built by finding neighbours and adding the Slater-Koster hopping of each pair has exactly one hopping per bond, equal to the two-centre integral for the distance; if an isometry of space maps the atoms to atoms, with complete shells of equal energy, then rotating the shells is a unitary symmetry of the Hamiltonian. In particular make_graphene_sp succeeds for every c, its hoppings are the two-centre integrals between first and second neighbours in the plane, and its Hamiltonian and bands have the point group D6h of the sheet.", "quantifier": "all cells with s, p and d orbitals, all parameter functions of the distance, all isometries and arrangements of atoms, all Bloch vectors, both conventions; all values of c", "why_tests_cant": "tests compare a few bands along one path; whether each bond is found once, with its sign, and whether every rotated shell matches, is a statement about all bonds, directions and k-points.", "anchors": ["tbplas/materials/graphene.py:make_graphene_sp", "tbplas/builder/advanced.py:find_neighbors", "tbplas/builder/advanced.py:SK", "tbplas/materials/xs2.py:make_mos2_soc"]}
{"id": "C112", "title": "make_mos2_soc is the documented model of MoS2 with exact Kramers pairs and mirror", "statement": "make_mos2_soc returns 22 orbitals, eleven with spin up followed by the same with spin down, whose hoppings are exactly the two-centre integrals without change of spin between all pairs of atoms at most 0.32 nm apart and the matrix elements of lambda L.S between different orbitals of one atom, with the parameter of that atom. Its bands at k and -k agree, every state at half a reciprocal lattice vector has an orthogonal partner of the same energy, and the Hamiltonian commutes with the mirror in the plane of Mo. Threefold rotation is not exact because the lattice is typed with rounded digits.", "quantifier": "all Bloch vectors, both conventions, every state; all pairs of orbitals and all cells", "why_tests_cant": "tests compare a few bands with a reference; a missing or double bond, a wrong sign in one of the 484 spin-orbit elements or a coupling of the wrong pair changes bands only slightly and along some directions.", "anchors": ["tbplas/materials/xs2.py:make_mos2_soc", "tbplas/builder/advanced.py:merge_prim_cell", "tbplas/builder/advanced.py:SOCTable", "tbplas/builder/advanced.py:SK"]}
{"id": "C113", "title": "The cube of an atomic orbital holds the normalised stationary state of the hydrogen-like atom", "statement": "For a nuclear charge z, a principal quantum number n and an s, p, d or f shell, set_cube writes to every point of the grid at least 1e-7 bohr away from the nucleus the value of one fixed function of the displacement: it solves the Schroedinger equation of the charge z with energy -z^2/(2 n^2) hartree, has the angular dependence of the documented real harmonic with a positive factor near the nucleus, has norm one, and is orthogonal to every other orbital of that nucleus. Memory outside the grid is not touched. At the nucleus the cube holds zero, which is wrong for s orbitals.", "quantifier": "every charge, every n, all sixteen (l, m) of the shells s to f, every nucleus position, grid origin, resolution and size; all pairs of orbitals", "why_tests_cant": "a test evaluates some orbitals at some points; a wrong normalisation of one harmonic, or a wrong term in the series for large n, is invisible unless that orbital is integrated, and orthogonality of all pairs is a statement about infinitely many n.", "anchors": ["tbplas/cython/atom.pyx:set_cube", "tbplas/visual.py:Visualizer.plot_wfc3d"]}
{"id": "C114", "title": "A cube file holds the Bloch wave of the given state", "statement": "plot_wfc3d, given a range of cells, succeeds for every model with independent lattice vectors and writes, in the order of a cube file, the real part, imaginary part or square of sum_b c_b N^(-1/2) sum_R exp(i phase) psi_b(r - r_b - R) at the points origin + resolution*(i,j,k), with the number of points, origin and spacing stated in the header; the phase is that of the chosen convention, and the two conventions give the same file for the corresponding eigenstates. Every atom is listed once with its charge. Without a range of cells the call always fails.", "quantifier": "every model, coefficient vector, quantum numbers (s to f), k-point, range of cells, box and resolution; every grid point at least 1e-7 bohr away from all atoms; every Hamiltonian for the two conventions", "why_tests_cant": "a test compares one file with a stored one, which a wrong phase, order of points or normalisation passes as long as it was wrong when the file was stored; agreement of the conventions is a statement about all eigenstates of all models.", "anchors": ["tbplas/visual.py:Visualizer.plot_wfc3d", "tbplas/cython/atom.pyx:set_cube", "tbplas/base/lattice.py:cart2frac"]}
{"id": "C115", "title": "Pictures of models show the model", "statement": "The plot methods of primitive cells, supercells and samples succeed for the six legal views and raise ValueError for any other. A segment is drawn for every hopping term with an energy of at least the cutoff, from orbital i of cell 0 to orbital j of cell R (and for the conjugate term if asked for), and for nothing else; in supercells for every image of every hopping term that ends at an existing orbital; between supercells for every term of the inter-hopping. The dots are the orbitals at their positions, coloured by their energies, of the cells within the reach of the hopping terms or of the supercell without its vacancies; every segment drawn ends at dots. The grid shows the borders of these cells and the two lattice vectors.", "quantifier": "every model reached by any history of calls, every view, cutoff and choice of the other options; every supercell, set of vacancies, boundary condition and inter-hopping", "why_tests_cant": "a picture is checked by looking at it, for a few models in the view ab; a wrong range of cells, a missing conjugate or a swapped direction is only seen in particular models and views.", "anchors": ["tbplas/builder/primitive.py:PrimitiveCell.plot", "tbplas/builder/super.py:SuperCell.plot", "tbplas/builder/super.py:SCInterHopping.plot", "tbplas/builder/sample.py:Sample.plot", "tbplas/builder/visual.py:ModelViewer"]}
{"id": "C116", "title": "Pictures of scalar fields show the field where it is", "statement": "plot_scalar covers the bounding box of the data with pixels and every pixel shows the interpolated field at a point not further from its centre than half a pixel.", "quantifier": "every set of data points, every interpolated field, every number of pixels along the two directions", "why_tests_cant": "the default grid is square and so is every grid in the examples; the error is invisible there.", "anchors": ["tbplas/visual.py:Visualizer.plot_scalar"]}
{"id": "C117", "title": "The formulae printed by print_hk are the Hamiltonian", "statement": "The text printed by print_hk, read and run as Python code for any k-point, builds the matrix set_ham_dense builds: exactly in convention 2; exactly in convention 1 if no component of a hopping vector is tiny but non-zero or nearly but not quite one; and in every case up to 4e-5 pi (|ka|+|kb|+|kc|) times the sum of the hopping energies. It prints exactly when set_ham_dense succeeds and otherwise raises the documented errors.", "quantifier": "every primitive cell in every state, every k-point, both conventions", "why_tests_cant": "the printed text is compared by eye for one or two models; signs, missing conjugate terms or dropped summands show only for particular hopping vectors.", "anchors": ["tbplas/builder/primitive.py:PrimitiveCell.print_hk", "tbplas/builder/primitive.py:f_dot_s"]}
{"id": "C118", "title": "Fitting minimises the weighted deviation of the bands", "statement": "estimate_error returns, k-point by k-point and band by band, the deviation from the reference times the weight of the band; weights are the absolute values of those given divided by their sum, or one. If the minimiser finds the least sum of squares, fit returns parameters of least weighted deviation, and parameters reproducing the reference in all bands of non-zero weight if there are any. Rescaling the weights changes nothing. Wrong lengths raise ValueError, unsuccessful fits RuntimeError.", "quantifier": "every number of k-points and bands, reference, weights, model and minimiser", "why_tests_cant": "a test fits one model; a misplaced weight only changes which of several imperfect parameters is returned.", "anchors": ["tbplas/builder/advanced.py:ParamFit"]}
{"id": "C119", "title": "Different random samples are different", "statement": "The random states of different samples of a calculation, and of calculations with different seeds, are generated from different seeds of the random number generator.", "quantifier": "every seed, number of samples and number of words of the generator", "why_tests_cant": "repeated states only show as error bars that do not shrink; the pairs concerned are far apart.", "anchors": ["tbplas/fortran/random.f90:init_seed", "tbplas/fortran/random.f90:random_state", "tbplas/fortran/tbpm.f90:tbpm_dos"]}
{"id": "C120", "title": "Conversions between the two numberings of orbitals are inverse to each other and reject everything else", "statement": "On a supercell after any history of calls, orb_id_pc2sc and orb_id_sc2pc are inverse to each other between the orbitals (legal quadruples that are no vacancies) and the indices 0..num_orb_sc-1, and raise the documented exception, naming the cause, for every other argument. The array versions give the same entry by entry, or the exception for the first illegal entry.", "quantifier": "every supercell state reached by any history, every index, quadruple and array", "why_tests_cant": "tests convert a few indices; wrong handling of vacancies, negative or very large indices only shows for particular entries.", "anchors": ["tbplas/builder/super.py:OrbitalSet.orb_id_sc2pc", "tbplas/builder/super.py:OrbitalSet.orb_id_pc2sc", "tbplas/builder/super.py:OrbitalSet.orb_id_sc2pc_array", "tbplas/builder/super.py:OrbitalSet.orb_id_pc2sc_array", "tbplas/cython/super.pyx:check_id_sc_array", "tbplas/cython/super.pyx:check_id_pc_array"]}
{"id": "C121", "title": "Pictures of bands, wave functions and vector fields show the data where they belong", "statement": "In the picture of the bands along a path of gen_kpath there is one curve per band, which at the distance travelled in reciprocal space to a k-point has the energy at this point, and every high-symmetry point is marked and labelled at the distance travelled to it. In the picture of a wave function every orbital has a dot at its position with its value, and the model drawn along consists of its hopping terms. Arrows of a vector field are coloured by their length.", "quantifier": "every path with points on all legs, lattice, number of bands; every primitive cell after any history of calls; every wave function and vector field", "why_tests_cant": "pictures are looked at, not tested; marks that are off by one point or bonds drawn from the wrong orbital pass unnoticed.", "anchors": ["tbplas/visual.py:Visualizer.plot_bands", "tbplas/visual.py:Visualizer.plot_wfc", "tbplas/visual.py:Visualizer._plot_model", "tbplas/visual.py:Visualizer.plot_vector", "tbplas/base/kpoints.py:gen_kdist"]}
{"id": "C122", "title": "Results of calculations are in their files and stay there", "statement": "A calculation that returns leaves each of its results in the file directory/prefix.quantity.npy of the solver, where it can be loaded again, whatever is done later (other solvers, changes of the output, other calculations, failing calls), as long as this quantity is not calculated again for the same directory and prefix; also a crash at any point of such an operation leaves it intact. The configuration of a solver is in directory/prefix.config.pkl. (A crash during the calculation itself may leave neither the old nor the new result. Solvers created with the default prefix within one second share their files, calc_corr_dc_cond replaces the result of calc_corr_dos, and the stored configuration does not hold the number of samples adjusted for MPI.)", "quantifier": "every history of operations on any number of solvers, number of processes, crash point, directory, prefix, value", "why_tests_cant": "lost results appear only for particular sequences of calls, collisions of names or crash points.", "anchors": ["tbplas/tbpm/solver.py:Solver.set_output", "tbplas/tbpm/solver.py:Solver.save_config", "tbplas/tbpm/solver.py:Solver._save_data", "tbplas/tbpm/solver.py:Solver._dist_sample", "tbplas/fortran/tbpm.f90:tbpm_dos"]}
{"id": "C123", "title": "A periodic sample has the bands of its primitive cell", "statement": "Make a supercell of n1 x n2 x n3 primitive cells without vacancies and modified hoppings, which closes on itself (every direction is periodic, or one cell thick with no hopping leaving it), and a sample of it. After any calls which build, reset or rescale its arrays, the Hamiltonian of the sample at any Bloch vector K, dense or sparse, has exactly the eigenvalues of the primitive cell at the n1 n2 n3 points ((K1+m1)/n1, (K2+m2)/n2, (K3+m3)/n3), with multiplicities; and the matrix with which TBPM propagates, times the scaling factor, has those of K = 0. (The latter holds if no nonzero on-site energy is below the cutoff of the builder.)", "quantifier": "every primitive cell, every history of the cell, the supercell and the sample, every dimension, Bloch vector and scaling factor", "why_tests_cant": "an error in the index arithmetic, the wrapping of hoppings, the conjugate terms, the displacement vectors or the scaling changes the spectrum only for particular cells and dimensions; tests compare a few points of one model.", "anchors": ["tbplas/builder/super.py:SuperCell.get_hop", "tbplas/builder/sample.py:Sample.set_ham_dense", "tbplas/builder/sample.py:Sample.set_ham_csr", "tbplas/builder/sample.py:Sample.build_ham_csr", "tbplas/builder/sample.py:Sample.rescale_ham", "tbplas/builder/primitive.py:PrimitiveCell.set_ham_dense"]}
{"id": "C124", "title": "Averages over random states estimate traces, with known error", "statement": "If the generator delivers independent uniform numbers, and independent ones after different seeds, then for every operator A the mean of <psi|A|psi> over the random states is Tr A / n and its variance is (n sum|A_ij|^2 - |Tr A|^2) / (n^2 (n+1)); for a unitary A at most 1/(n+1). Hence the correlation function of the DOS at every time, those of the optical conductivity, and all Kubo-Bastin moments, computed from N samples on any number of processes, have the trace of their operator per orbital as expectation value, and a mean square error equal to the variance of a single state divided by N.", "quantifier": "every Hamiltonian, number of orbitals, number of samples and processes, seed other than 0, time, and every operator; expectation over the ideal random numbers", "why_tests_cant": "the statement is about the distribution of all possible results; a wrong distribution of the moduli, a missing phase or samples which repeat shift the mean or the error by an amount that a single run hides in its noise.", "anchors": ["tbplas/fortran/random.f90:random_state", "tbplas/fortran/tbpm.f90:tbpm_dos", "tbplas/fortran/tbpm.f90:tbpm_accond", "tbplas/fortran/tbpm.f90:tbpm_kbdc", "tbplas/tbpm/solver.py:Solver.calc_corr_dos", "tbplas/tbpm/solver.py:Solver.calc_corr_ac_cond", "tbplas/tbpm/solver.py:Solver.calc_hall_mu"]}
{"id": "C125", "title": "The density of states by diagonalization counts states", "statement": "For a set of k-points there is one function F of the energy for every broadening, such that every run of calc_dos, for any number of processes, energy range and step, returns its values at the energies it returns. F is nonnegative; its integral over all energies is the spin degeneracy times the mean weight of the states on the chosen orbitals, i.e. the spin degeneracy if none are chosen, and times the fraction of the chosen orbitals for orthonormal states; and when the broadening goes to zero its integral between two energies becomes the weighted fraction of the levels between them. The densities of disjoint sets of orbitals add up to that of their union. The energies are equally spaced from the lower to the upper end of the range, with a spacing from one to two requested steps.", "quantifier": "every model, set of k-points, set of orbitals, broadening, both basis functions, number of processes, energy range and step", "why_tests_cant": "normalisation and the limit of narrow broadening are statements about integrals over all energies and all broadenings; a wrong prefactor of one basis function, a projection in the wrong order or a wrong divisor leave a curve which looks plausible.", "anchors": ["tbplas/diagonal/base.py:DiagSolver.calc_dos", "tbplas/diagonal/base.py:DiagSolver.calc_bands", "tbplas/diagonal/base.py:DiagSolver._calc_proj", "tbplas/diagonal/base.py:gaussian", "tbplas/diagonal/base.py:lorentzian"]}
{"id": "C126", "title": "Response functions by diagonalization describe a passive medium", "statement": "With nonnegative inverse temperature, broadening and spin degeneracy, for any eigenvalues and eigenvectors: the Hermitian part of the AC conductivity tensor is nonnegative at every frequency, i.e. light of any polarisation is absorbed and never amplified; sigma(-omega) is the complex conjugate of sigma(omega); the dielectric function at q = 0 has a nonnegative imaginary part and loss function at every positive frequency; a static potential is screened, i.e. the polarizability at frequency zero has a nonpositive real part and calc_epsilon returns a real part of at least one; on the mesh Pi(-q, -omega) is the conjugate of Pi(q, omega) and the imaginary parts at q and -q have a nonpositive sum for nonnegative frequencies. calc_epsilon returns 1 - v(q) Pi(q, omega) with the Coulomb interaction of the dimension. A calculator made with positive temperature has a positive beta, and is refused exactly for a wrong mesh or dimension.", "quantifier": "every model, mesh, lattice, frequency grid, temperature, chemical potential, broadening, q-point, polarisation, number of processes and both backends", "why_tests_cant": "the signs are inequalities over all polarisations, frequencies and spectra; a wrong sign of the broadening, of the occupations or of one phase can leave the sign right in the few spectra a test looks at.", "anchors": ["tbplas/diagonal/lindhard.py:Lindhard.__init__", "tbplas/diagonal/lindhard.py:Lindhard.calc_ac_cond", "tbplas/diagonal/lindhard.py:Lindhard.calc_dyn_pol_regular", "tbplas/diagonal/lindhard.py:Lindhard.calc_dyn_pol_arbitrary", "tbplas/diagonal/lindhard.py:Lindhard._get_vq", "tbplas/diagonal/lindhard.py:Lindhard.calc_epsilon", "tbplas/diagonal/lindhard.py:Lindhard.calc_epsilon_q0"]}
{"id": "C127", "title": "Physics in a magnetic field does not depend on gauge, origin or sign conventions", "statement": "In a sample which no hopping term leaves, the Hamiltonians and current operators the solver makes of set_magnetic_field with gauges 0 and 1, or before and after moving all orbitals by a vector, differ only by phases of the orbitals: the spectra, the traces and diagonals of everything computed from Hamiltonian and currents (correlation functions, local densities) and all transition probabilities agree. In any sample, moving the orbitals acts like set_k_point. With real hoppings, reversing the field transposes the Hamiltonian and the currents, so the spectrum stays and current correlations obey Onsager's relation. In a sample periodic along the direction of the vector potential, every closed path, also across the boundary, encloses the flux B times its area. Fails for gauge 2, which is no field at all, and for periodic samples in the other gauge.", "quantifier": "every sample, both builders of the sparse matrix with or without sorted columns, every field, displacement of the origin, gauge, and every noncommutative polynomial in Hamiltonian and currents", "why_tests_cant": "equality of spectra and of all correlation functions for all samples and fields; a wrong sign or a swapped coordinate in one gauge shows up only in loops of a certain orientation.", "anchors": ["tbplas/builder/sample.py:Sample.set_magnetic_field", "tbplas/cython/sample.pyx:set_mag_field", "tbplas/builder/sample.py:Sample.set_k_point", "tbplas/cython/sample.pyx:build_ham_dxy_fast", "tbplas/cython/sample.pyx:build_ham_dxy_safe"]}
{"id": "C128", "title": "The recursion LDOS converges exponentially with depth and sees only the surroundings of a site", "statement": "The LDOS of a site computed by calc_ldos_haydock differs from the exact LDOS (the diagonal element of the Green's function at the broadening delta) by at most r/(pi delta^2 sinh(depth arsinh(delta/r))), where r is the rescaling factor, which bounds the spectrum: the depth needed for an accuracy depends on r and delta only, not on the sample, the site or the energy. Two samples of any size which agree within depth hoppings of the sites give the same result, so the exact LDOS of a site hardly depends on what is far away.", "quantifier": "every sample whose rescaled Hamiltonian is Hermitian with eigenvalues in [-1, 1], every size, site, phase of the start vector, number of samples, depth, broadening, energy and schedule of the parallel loops", "why_tests_cant": "a bound for all samples of all sizes and all depths; tests compare single samples at single depths with a diagonalisation.", "anchors": ["tbplas/fortran/tbpm.f90:ldos_haydock", "tbplas/fortran/propagation.f90:Haydock_coef", "tbplas/fortran/funcs.f90:green_function", "tbplas/tbpm/solver.py:Solver.calc_ldos_haydock"]}
{"id": "C129", "title": "The recursion LDOS of several sites is the mean over the random samples", "statement": "calc_ldos_haydock for a group of sites and several random samples returns the mean over the samples of the LDOS of the random states; its mean over the random numbers is the mean of the LDOS over the sites. Holds for one sample. Fails for more: the program averages the coefficients of the recursions instead of the Green's functions, which can put a peak of height 1/(pi delta) where no site of the group has any level.", "quantifier": "every sample, group of sites, draw of the random numbers, depth and broadening (counterexample: every broadening)", "why_tests_cant": "an average over all random draws; and two samples with similar coefficients hide the error.", "anchors": ["tbplas/fortran/tbpm.f90:ldos_haydock", "tbplas/fortran/random.f90:random_state"]}
{"id": "C130", "title": "The DOS and LDOS from the time evolution show no states where there are none", "statement": "Analyzer.calc_dos applied with the Hanning window to the result of calc_corr_dos shows, at any energy further than eta from every level of the sample (on the circle of the energy range R), at most spin/R * (3 pi^2/(4 T sin^2(pi eta/R)) + 2 T ((1 + precision (pi + 2))^T - 1)) states per unit of energy after T time steps: gaps are empty up to a background falling like 1/T, and everything else is seen within eta of levels. For calc_ldos only levels with an amplitude on the chosen sites count. With the default settings the calculation never fails and the background is at most 0.0074/(R sin^2(pi eta/R)).", "quantifier": "every sample with Hermitian Hamiltonian and spectrum within the rescaling factor, every choice of normalised random states, number of samples, number of processes, schedule, number of time steps, sufficient Bessel precision, energy and eta", "why_tests_cant": "a bound over all spectra, random states and numbers of steps, combining propagation, averaging, windowing and Fourier transform; tests compare one spectrum by eye.", "anchors": ["tbplas/tbpm/solver.py:Solver.calc_corr_dos", "tbplas/tbpm/solver.py:Solver.calc_corr_ldos", "tbplas/tbpm/analysis.py:Analyzer.calc_dos", "tbplas/tbpm/analysis.py:window_hanning", "tbplas/fortran/tbpm.f90:tbpm_dos"]}
{"id": "C131", "title": "The sparse solver finds part of the bands of the dense solver, and the density of states does not depend on the solver", "statement": "calc_bands(solver='arpack') returns at every k-point a part (with multiplicities, in the same descending order) of the energies of calc_bands(solver='lapack'), whichever eigenpairs eigsh returns, for any number of processes. The default number of bands is valid for every model with at least two orbitals; one orbital always fails. The density of states should be the same or less at every energy (states not found are missing): violated, since calc_dos divides by the number of states found instead of the number of orbitals; what holds is k * dos_sparse <= num_orb * dos_dense.", "quantifier": "every model, every choice of eigenpairs by eigsh, every number of bands, set of k-points, orbitals for projection, broadening, basis function and number of processes (the counterexample holds for every broadening)", "why_tests_cant": "quantifies over all matrices and all outcomes of an iterative solver with random start vectors.", "anchors": ["tbplas/diagonal/base.py:DiagSolver._diag_ham_csr", "tbplas/diagonal/base.py:DiagSolver.calc_bands", "tbplas/diagonal/base.py:DiagSolver.calc_dos"]}
{"id": "C132", "title": "Quasi-eigenstates are made of the states at their energy", "statement": "calc_quasi_eigenstates at an energy near a single level returns the probability density of the eigenvector of this level in every orbital, up to an error that falls like the inverse square of nr_time_steps; orbitals in which no state near the energy has an amplitude get no weight, up to an error of the fourth power. With the default settings the calculation always runs to its end, and the error is at most 4e-5 divided by the overlap and by sin^2 of pi times the distance of the other levels over the energy range.", "quantifier": "every sample (Hermitian Hamiltonian with its spectrum in the energy range), list of energies, random states with an overlap with the level, number of time steps, samples and processes, and schedule of the threads", "why_tests_cant": "quantifies over all Hamiltonians, random states and numbers of time steps; the bound is on an error, which single runs only sample.", "anchors": ["tbplas/tbpm/solver.py:Solver.calc_quasi_eigenstates", "tbplas/fortran/tbpm.f90:tbpm_eigenstates"]}
{"id": "C133", "title": "The LDOS from the time evolution depends on the surroundings of the sites only", "statement": "calc_corr_ldos, and the LDOS calculated from it, are the same for two samples, of any sizes, that agree within a number of hoppings around the sites: half the number of time steps times the degree of the series of a time step is enough. With the default settings (1024 time steps) these are 10752 hoppings. What the sample is beyond, and the random numbers on other sites, does not matter.", "quantifier": "every pair of samples, list of sites, random state, number of time steps, samples and processes, and schedule of the threads", "why_tests_cant": "quantifies over pairs of samples of unbounded size and over everything outside the surroundings.", "anchors": ["tbplas/tbpm/solver.py:Solver.calc_corr_ldos", "tbplas/fortran/tbpm.f90:tbpm_ldos", "tbplas/tbpm/analysis.py:Analyzer.calc_ldos"]}
{"id": "C134", "title": "Electron-hole symmetry of bipartite models", "statement": "If the orbitals are of two kinds, hopping terms join orbitals of different kinds only and there are no on-site energies (as in graphene), what is calculated is symmetric about zero energy: the bands come in pairs of opposite energies, and DOS and partial DOS from diagonalization are equal at opposite energies. In the time evolution and in the recursion, reversing the sign of the random numbers on one kind of sites conjugates the correlation functions and mirrors the spectra; hence the LDOS at sites of one kind is symmetric for every random state, and the mean correlation function of the DOS is real.", "quantifier": "every bipartite cell or sample, k-points, convention, orbitals, random state, number of samples and processes, schedule of the threads, window", "why_tests_cant": "quantifies over all bipartite models and random states, and over eigensolvers that keep the promise of LAPACK.", "anchors": ["tbplas/diagonal/base.py:DiagSolver.calc_bands", "tbplas/diagonal/base.py:DiagSolver.calc_dos", "tbplas/tbpm/solver.py:Solver.calc_corr_dos", "tbplas/tbpm/solver.py:Solver.calc_corr_ldos", "tbplas/tbpm/solver.py:Solver.calc_ldos_haydock", "tbplas/tbpm/analysis.py:Analyzer.calc_dos"]}
{"id": "C135", "title": "The order of the parts of a sample does not matter", "statement": "Giving the supercells and inter-hoppings of a sample in another order renumbers the orbitals and changes nothing else: there is one permutation of the orbital numbers which takes the on-site energies, positions and hopping terms of one sample to those of the other. Hence the automatic rescaling factor is the same; applying a magnetic field keeps the samples the same; the dense, sparse and TBPM Hamiltonians are those of the other sample with rows and columns permuted, so all energies agree with multiplicities (for the same lattice of the k-points); the correlation functions of DOS, LDOS and optical conductivity agree for permuted random states, and their means and mean square errors agree without permuting them.", "quantifier": "every sample with different supercells, every order of the supercells and of the inter-hoppings, field, k-point, convention, random state, schedule, number of processes and samples", "why_tests_cant": "quantifies over all permutations of the parts and all supercells; a test can only try a few orders.", "anchors": ["tbplas/builder/sample.py:Sample.__init__", "tbplas/builder/sample.py:Sample.init_orb_eng", "tbplas/builder/sample.py:Sample.init_orb_pos", "tbplas/builder/sample.py:Sample.init_hop", "tbplas/builder/sample.py:Sample.rescale_ham", "tbplas/builder/sample.py:Sample.set_magnetic_field", "tbplas/builder/sample.py:Sample.set_ham_dense", "tbplas/builder/sample.py:Sample.build_ham_dxy", "tbplas/tbpm/solver.py:Solver.calc_corr_dos"]}
{"id": "C136", "title": "Parts which are not coupled can be calculated separately", "statement": "A model of two parts without hoppings between them - two cells merged without inter-hoppings, or a sample of two groups of supercells without inter-hoppings between the groups - has the Bloch and TBPM Hamiltonians of the parts as diagonal blocks and zeros elsewhere. Hence its bands at every k-point are the bands of the first and of the second part together; its DOS on the same energies is the mean of the densities of the parts weighted with their numbers of orbitals, also when restricted to chosen orbitals; the expected TBPM correlation function of the DOS is the same weighted mean; the TBPM correlation function of the LDOS on orbitals of one part is that of the part alone, with the same warnings.", "quantifier": "all cells with a common lattice, all groups of supercells, k-points, conventions, energy windows, broadenings, orbital selections, random states, schedules, numbers of processes, time steps and samples", "why_tests_cant": "quantifies over all pairs of models and all parameters; equality of multisets of bands and of expectations is not observable from single runs.", "anchors": ["tbplas/builder/advanced.py:merge_prim_cell", "tbplas/builder/sample.py:Sample.__init__", "tbplas/builder/sample.py:Sample.init_hop", "tbplas/builder/sample.py:Sample.set_ham_dense", "tbplas/builder/sample.py:Sample.set_ham_csr", "tbplas/builder/sample.py:Sample.build_ham_dxy", "tbplas/diagonal/base.py:DiagSolver.calc_bands", "tbplas/diagonal/base.py:DiagSolver.calc_dos", "tbplas/tbpm/solver.py:Solver.calc_corr_dos", "tbplas/tbpm/solver.py:Solver.calc_corr_ldos"]}
{"id": "C137", "title": "The parallel loops have no races", "statement": "Running with several OpenMP threads gives the results of one thread. In the loops of the vector operations, of the products with the sparse Hamiltonian, of the Fourier transform in place, of the sums over the energies of quasi-eigenstates and of the Chebyshev moments no iteration writes an element which another one reads or writes; so for every number of threads, every distribution of the iterations over the threads and every interleaving of single loads and stores the loop ends, and ends with the contents the serial loop gives in any order. Reductions give the sum of all iterations. If the phase in the loop over the energies were shared by the threads, the result would depend on the interleaving.", "quantifier": "all numbers of threads, distributions of iterations, interleavings of loads and stores, array contents, matrices, lengths 2^p, energies and kernels", "why_tests_cant": "a race shows up in a few interleavings only, which no test can enforce; the number of interleavings is exponential.", "anchors": ["tbplas/fortran/math.F90", "tbplas/fortran/csr.F90:csr_mv", "tbplas/fortran/csr.F90:amxpy_z", "tbplas/fortran/csr.F90:amxpby_z", "tbplas/fortran/fft.F90:fft1d_inplace", "tbplas/fortran/tbpm.f90:tbpm_dccond", "tbplas/fortran/tbpm.f90:tbpm_eigenstates", "tbplas/fortran/tbpm.f90:tbpm_kbdc", "tbplas/fortran/analysis.f90:cond_from_trace"]}
{"id": "C138", "title": "Parallel runs end, and do not depend on timing", "statement": "A script started with mpirun comes to an end, and what the processes return, print and save does not depend on their speeds nor on how MPI lets them leave its collective operations: every run ends with the results of lockstep. This holds for states, bands, DOS, Wannier centre phases, AC conductivity, dynamical polarization, the TBPM correlation functions, the output directory and the analyzer, and for scripts which call these one after the other and decide on the results what to do next; screen and files show what the master does, in the same order in every run. It holds only if no process raises: with more processes than k-points the AC conductivity and the dynamical polarization raise on processes without k-points and the other processes wait for ever, and so they do if the master cannot make the output directory or raises in the analyzer.", "quantifier": "all numbers of processes, interleavings of their steps, implementations of the collective operations, models, k-points, parameters and scripts", "why_tests_cant": "deadlocks and dependence on timing show up in a few interleavings only; the number of interleavings is exponential and a test can neither choose them nor see that a process waits for ever.", "anchors": ["tbplas/parallel.py:MPIEnv.all_reduce", "tbplas/parallel.py:MPIEnv.all_average", "tbplas/parallel.py:MPIEnv.bcast", "tbplas/parallel.py:MPIEnv.barrier", "tbplas/parallel.py:MPIEnv.print", "tbplas/parallel.py:MPIEnv.log", "tbplas/parallel.py:MPIEnv.dist_bound", "tbplas/diagonal/base.py:DiagSolver.calc_bands", "tbplas/diagonal/base.py:DiagSolver.calc_dos", "tbplas/diagonal/base.py:DiagSolver.calc_states", "tbplas/diagonal/z2.py:Z2.calc_phases", "tbplas/diagonal/lindhard.py:Lindhard.calc_ac_cond", "tbplas/diagonal/lindhard.py:Lindhard.calc_dyn_pol_regular", "tbplas/diagonal/lindhard.py:Lindhard.calc_dyn_pol_arbitrary", "tbplas/tbpm/solver.py:Solver.set_output", "tbplas/tbpm/solver.py:Solver.calc_corr_dos", "tbplas/tbpm/solver.py:Solver.calc_corr_dc_cond", "tbplas/tbpm/analysis.py:Analyzer.calc_dos"]}
{"id": "C139", "title": "The zero of energy and the choice of eigenvectors do not matter", "statement": "If the energies of all orbitals of a model are raised by the same amount, and the chemical potential with them, then the bands and the energies of the density of states move by that amount, and the density of states, the dynamical polarization (at points of the mesh and at any points) and the AC conductivity stay as they are. The eigenvectors, which are free up to a phase and, where levels coincide, up to a rotation, do not matter: two eigensolvers give the same results.", "quantifier": "all models without overlap, k-points, conventions, energy shifts, eigensolvers, numbers of processes, frequencies and broadenings; the density of states also for selected orbitals", "why_tests_cant": "eigensolvers choose phases and, for degenerate levels, directions in ways which depend on library, version and rounding; a test sees the choice of one library at a few points only.", "anchors": ["tbplas/diagonal/base.py:DiagSolver.calc_bands", "tbplas/diagonal/base.py:DiagSolver.calc_dos", "tbplas/diagonal/base.py:DiagSolver.calc_states", "tbplas/diagonal/lindhard.py:Lindhard.calc_dyn_pol_regular", "tbplas/diagonal/lindhard.py:Lindhard.calc_dyn_pol_arbitrary", "tbplas/diagonal/lindhard.py:Lindhard.calc_ac_cond", "tbplas/builder/primitive.py:PrimitiveCell.add_orbital"]}
{"id": "C140", "title": "Results do not depend on the choice of the cell", "statement": "A crystal may be described by a cell or by an extension of it (extend_prim_cell). With meshes that hold the same k-points, the density of states per orbital of the two descriptions is equal, and so should be the dynamical polarization and the AC conductivity. These are not: they come out smaller by the number of cells in the extension.", "quantifier": "all cells made by any calls, all extensions, meshes, eigensolvers, numbers of processes, q-points, frequencies, temperatures and broadenings; models without overlap", "why_tests_cant": "a test compares two cells on one mesh; equality for all meshes and eigensolvers needs the folding of the bands and the independence of the choice of eigenvectors.", "anchors": ["tbplas/builder/advanced.py:extend_prim_cell", "tbplas/diagonal/base.py:DiagSolver.calc_dos", "tbplas/diagonal/lindhard.py:Lindhard.calc_dyn_pol_arbitrary", "tbplas/diagonal/lindhard.py:Lindhard.calc_ac_cond"]}
{"id": "C141", "title": "Models with real hoppings do not distinguish opposite wave vectors", "statement": "If all hoppings of a cell are real, the bands at k and -k are equal, the dynamical polarization at q and -q is equal, and the AC conductivity is symmetric: the components (a, b) and (b, a) are equal (Onsager).", "quantifier": "all cells with real hoppings, conventions, meshes, eigensolvers and choices of eigenvectors, numbers of processes, q-points, frequencies, temperatures and broadenings; models without overlap", "why_tests_cant": "the states at -k which the eigensolver returns are not the conjugate ones: equality needs the independence of the choice of eigenvectors, and a rearrangement of the mesh by a permutation.", "anchors": ["tbplas/diagonal/base.py:DiagSolver.calc_bands", "tbplas/diagonal/lindhard.py:Lindhard.calc_dyn_pol_regular", "tbplas/diagonal/lindhard.py:Lindhard.calc_dyn_pol_arbitrary", "tbplas/diagonal/lindhard.py:Lindhard.calc_ac_cond"]}
{"id": "C142", "title": "Results do not depend on how the crystal is described", "statement": "Two cells that describe the same crystal give the same results: the orbitals may be listed in another order, each may be represented by its copy in another cell (with the hoppings changed accordingly), the origin may be moved and the crystal rotated or reflected. Bands and DOS at the same fractional k-points are equal, also the DOS on selected orbitals; the dynamical polarization is equal at the same mesh points and at rotated Cartesian q-points; the AC conductivity transforms as a tensor.", "quantifier": "all pairs of descriptions (orders, choices of copies, origins, orthogonal matrices), conventions, meshes, eigensolvers and choices of eigenvectors, numbers of processes, q-points, frequencies, temperatures and broadenings; models without overlap", "why_tests_cant": "the phases of the second convention depend on the positions, so the Hamiltonians, eigenvectors and matrix elements of the two descriptions all differ; only their combination is equal.", "anchors": ["tbplas/diagonal/base.py:DiagSolver.calc_bands", "tbplas/diagonal/base.py:DiagSolver.calc_dos", "tbplas/diagonal/lindhard.py:Lindhard.calc_dyn_pol_regular", "tbplas/diagonal/lindhard.py:Lindhard.calc_dyn_pol_arbitrary", "tbplas/diagonal/lindhard.py:Lindhard.calc_ac_cond"]}
{"id": "C143", "title": "Results do not depend on the units of energy and length", "statement": "Measuring all energies (on-site energies, hoppings, chemical potential, temperature, broadening, frequencies) in another unit and all lengths in another unit changes the results only by their dimension: band energies scale as energies, the DOS (also on selected orbitals) as 1 / energy, the dynamical polarization as 1 / (energy * length^dim), the AC conductivity as length^(2 - dim).", "quantifier": "all positive scale factors of energy and length, models, conventions, meshes, eigensolvers and choices of eigenvectors, numbers of processes, q-points, frequencies, temperatures and broadenings; two- and three-dimensional cells; models without overlap", "why_tests_cant": "tests use electronvolts and nanometres; absolute constants hidden in the code only show up in other units or for nearly degenerate levels.", "anchors": ["tbplas/diagonal/base.py:DiagSolver.calc_bands", "tbplas/diagonal/base.py:DiagSolver.calc_dos", "tbplas/diagonal/lindhard.py:Lindhard.calc_dyn_pol_regular", "tbplas/diagonal/lindhard.py:Lindhard.calc_dyn_pol_arbitrary", "tbplas/diagonal/lindhard.py:Lindhard.calc_ac_cond", "tbplas/cython/lindhard.pyx:prod_ac"]}
{"id": "C144", "title": "Response functions of parts of a crystal that are not coupled add", "statement": "If a model consists of two parts without hoppings between them, such as two layers far apart, then the dynamical polarization and the AC conductivity by diagonalization are the sums of those of the parts, and the dielectric function differs from one by as much as those of the parts together.", "quantifier": "all pairs of models, conventions, meshes, eigensolvers and choices of eigenvectors (also mixing degenerate states of the two parts), numbers of processes, both back ends, q-points, frequencies, temperatures, broadenings; models without overlap", "why_tests_cant": "tests compare a few models with stored results; states of the two parts that are degenerate may be mixed by the eigensolver, and cross terms between the parts vanish only in the sum over all pairs of states.", "anchors": ["tbplas/diagonal/lindhard.py:Lindhard.calc_dyn_pol_regular", "tbplas/diagonal/lindhard.py:Lindhard.calc_dyn_pol_arbitrary", "tbplas/diagonal/lindhard.py:Lindhard.calc_epsilon", "tbplas/diagonal/lindhard.py:Lindhard.calc_ac_cond"]}
{"id": "C145", "title": "The polarization is that of a conserved charge", "statement": "A uniform potential does not polarize a crystal: the dynamical polarization at q = 0 vanishes at every frequency, from both functions. At every q-point the polarization is bounded by the number of states per volume over the broadening, and at frequencies beyond the width of the bands by the number of states per volume over the distance from them, whatever the broadening.", "quantifier": "all models, meshes, eigensolvers and choices of eigenvectors, q-points, frequencies, temperatures, chemical potentials, broadenings, numbers of processes, both back ends", "why_tests_cant": "the zero is exact only for orthonormal states and is hidden by the other q-points of a test; bounds range over all spectra.", "anchors": ["tbplas/diagonal/lindhard.py:Lindhard.calc_dyn_pol_regular", "tbplas/diagonal/lindhard.py:Lindhard.calc_dyn_pol_arbitrary", "tbplas/cython/lindhard.pyx:prod_dp", "tbplas/diagonal/base.py:DiagSolver._diag_ham_dense"]}
{"id": "C146", "title": "Electrons and holes respond alike in bipartite models", "statement": "When the Hamiltonian joins only orbitals of different kinds, opposite chemical potentials give equivalent responses: the dynamical polarization is the complex conjugate at the opposite frequency (or the same at the opposite q-point, for q-points on the mesh), and the AC conductivity is the same with its two components exchanged. At zero chemical potential the AC conductivity is symmetric.", "quantifier": "all such models without overlap, meshes, eigensolvers and choices of eigenvectors, q-points, frequencies, temperatures, chemical potentials, broadenings, numbers of processes, both back ends", "why_tests_cant": "the symmetry maps states to other states with other phases, which a test on one model and one eigensolver cannot cover.", "anchors": ["tbplas/diagonal/lindhard.py:Lindhard.calc_dyn_pol_regular", "tbplas/diagonal/lindhard.py:Lindhard.calc_dyn_pol_arbitrary", "tbplas/diagonal/lindhard.py:Lindhard.calc_ac_cond", "tbplas/cython/lindhard.pyx:dyn_pol", "tbplas/cython/lindhard.pyx:ac_cond"]}
{"id": "C147", "title": "The height of the cell of a layer does not matter", "statement": "The dynamical polarization of a two-dimensional model depends on its layer only: not on the length of the third lattice vector, nor on its direction, which are chosen freely to describe the vacuum around the layer.", "quantifier": "all models without overlap whose hopping terms stay in the plane, meshes, eigensolvers, q-points, frequencies, temperatures, numbers of processes, third lattice vectors, both back ends", "why_tests_cant": "tests use one cell per model, in which the third lattice vector is perpendicular.", "anchors": ["tbplas/diagonal/lindhard.py:Lindhard._get_dnk", "tbplas/diagonal/lindhard.py:Lindhard._get_dyn_pol_factor", "tbplas/diagonal/lindhard.py:Lindhard.calc_dyn_pol_arbitrary", "tbplas/diagonal/lindhard.py:Lindhard.calc_dyn_pol_regular", "tbplas/base/lattice.py:gen_reciprocal_vectors"]}
