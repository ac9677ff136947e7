{"id": "C01", "title": "State/index round trip", "statement": "For a StateIndexing object, get_ind(get_state(b)) == b for every state index b, get_state(get_ind(s)) == s for every list s of nsingle zeros and ones, and both calls never raise on those arguments.", "quantifier": "every nsingle >= 1, every indexing ('Lin', 'charge', 'sz', 'ssq', or any other string), every b < 2^nsingle, every occupation list of length nsingle", "why_tests_cant": "There are 2^nsingle states for every nsingle and the tables are built by counting loops; a test samples a few sizes.", "anchors": ["qmeq/indexing.py:binarylist_to_integer", "qmeq/indexing.py:integer_to_binarylist", "qmeq/indexing.py:StateIndexing.get_state", "qmeq/indexing.py:StateIndexing.get_ind", "qmeq/indexing.py:make_inverse_map"]}
{"id": "C02", "title": "Charge lists partition the states", "statement": "get_lst(charge=N) contains exactly the state indices b whose occupation list get_state(b) sums to N, every state index occurs exactly once over all charges, and get_lst(charge=N) has binomial(nsingle, N) elements.", "quantifier": "every nsingle, every indexing, every charge 0..nsingle, every state index", "why_tests_cant": "Off-by-one errors in the counting loops only appear for particular sizes and charges.", "anchors": ["qmeq/indexing.py:construct_chargelst", "qmeq/indexing.py:enum_chargelst", "qmeq/indexing.py:StateIndexing.get_lst"]}
{"id": "C03", "title": "Spin-projection lists are right", "statement": "With 'sz' or 'ssq' indexing and even nsingle, get_lst(charge=N, sz=S) contains exactly the state indices whose occupation has charge N and (first half minus second half) equal S; the list has binomial(n/2, up)*binomial(n/2, down) elements, and the lists over all (charge, sz) cover every state index exactly once.", "quantifier": "every even nsingle, every charge, every admissible sz, every state index", "why_tests_cant": "The map from sz to list position uses truncated float division and a charge-dependent offset; only all (charge, sz, nsingle) triples settle it.", "anchors": ["qmeq/indexing.py:sz_to_ind", "qmeq/indexing.py:szrange", "qmeq/indexing.py:construct_szlst", "qmeq/indexing.py:enum_szlst", "qmeq/indexing.py:StateIndexing.get_lst"]}
{"id": "C04", "title": "Total-spin lists refine the spin-projection lists", "statement": "With 'ssq' indexing and even nsingle, for each (charge, sz) the lists get_lst(charge, sz, ssq), taken over increasing ssq, concatenate to exactly get_lst(charge, sz); for fixed (charge, ssq) all sz sectors have the same number of states (complete multiplets); and the quantum-number dictionaries qn_ind and ind_qn are inverse to each other and cover all states.", "quantifier": "every even nsingle, every charge, sz, ssq, every state", "why_tests_cant": "The multiplet counts are differences of list lengths whose nonnegativity is a unimodality fact about products of binomials, for every size.", "anchors": ["qmeq/indexing.py:construct_ssqlst", "qmeq/indexing.py:ssq_to_ind", "qmeq/indexing.py:ssqrange", "qmeq/indexing.py:make_quantum_numbers"]}
{"id": "C05", "title": "Zeroth-order density-matrix positions are a bijection", "statement": "With StateIndexingDM, for any choice of considered states, get_ind_dm0(b, bp, charge, maptype=0) maps the ordered pairs of considered states of equal charge one-to-one onto 0..ndm0_-1.", "quantifier": "every indexing object, every duplicate-free choice of considered states passed to set_statesdm, every pair (b, bp)", "why_tests_cant": "A collision would alias two matrix elements only for some sizes and some removed states.", "anchors": ["qmeq/indexing.py:StateIndexingDM.set_statesdm", "qmeq/indexing.py:StateIndexingDM.set_dictdm", "qmeq/indexing.py:StateIndexingDM.get_ind_dm0"]}
{"id": "C06", "title": "Density-matrix labels: diagonal first, conjugate pairs share one label", "statement": "With StateIndexingDM and 'Lin'/'charge'/'sz' indexing, the labels get_ind_dm0(b, bp, charge) of diagonal elements are exactly 0..npauli-1, those of included off-diagonal elements are exactly npauli..ndm0-1; (b,bp) and (bp,b) share their label, exactly one of the two is marked unique (maptype=2) and exactly that one is marked not conjugated (maptype=3); two included elements share a label only if they are equal or transposes; with 'Lin'/'charge' all pairs are included and ndm0r is the sum of squared charge-sector sizes; with 'sz' exactly the pairs of equal sz are included.", "quantifier": "every nsingle, every choice of considered states, every pair of states of equal charge", "why_tests_cant": "The labels are assigned by nested loops with a shared counter; all pairs in all sectors must be checked.", "anchors": ["qmeq/indexing.py:StateIndexingDM.set_mapdm", "qmeq/indexing.py:StateIndexingDM.get_ind_dm0"]}
{"id": "C07", "title": "First-order density-matrix positions are a bijection", "statement": "get_ind_dm1(c, b, bcharge) maps the pairs (c, b) of considered states with charge(c) = charge(b)+1 one-to-one onto 0..ndm1-1 (for StateIndexingDM and StateIndexingDMc).", "quantifier": "every choice of considered states, every adjacent-charge pair", "why_tests_cant": "Same as C05: aliasing only for some sizes.", "anchors": ["qmeq/indexing.py:StateIndexingDM.get_ind_dm1", "qmeq/indexing.py:StateIndexingDM.set_dictdm", "qmeq/indexing.py:StateIndexingDMc.get_ind_dm1"]}
{"id": "C08", "title": "Advertised total sizes are the true sizes", "statement": "With all states considered, ndm0_ equals ndm0_tot = binomial(2n, n) and ndm1_ equals ndm1_tot = n/(n+1)*binomial(2n, n).", "quantifier": "every nsingle", "why_tests_cant": "Closed formulas versus loops agree on samples; only Vandermonde's identity settles all sizes.", "anchors": ["qmeq/indexing.py:StateIndexingDM.__init__", "qmeq/indexing.py:StateIndexingDM.set_statesdm"]}
{"id": "C09", "title": "Removing Fock states leaves a consistent indexing", "statement": "After any sequence of remove_fock_states calls the remaining Fock states (those never named in a call) are indexed one-to-one by 0..nmany-1, get_ind of a removed state gives None, get_ind(get_state(b)) == b for remaining b, and get_lst(charge) lists exactly the remaining states of that charge.", "quantifier": "every nsingle, every indexing, every sequence of lists of Lin indices", "why_tests_cant": "Depends on the whole history of calls; the tests call it at most once.", "anchors": ["qmeq/indexing.py:StateIndexing.remove_fock_states"]}
{"id": "C10", "title": "One-particle Hamiltonian has the right fermionic matrix elements", "statement": "The many-body matrix built from hsingle is the second-quantised operator: the entry (i, j) with value h contributes h d+_j d_i (plus conj(h) d+_i d_j for i != j when herm_hs is set) in the occupation-number basis with the usual anticommuting signs; building it never raises for states of one charge sector.", "quantifier": "every nsingle, every hsingle dictionary, every pair of many-body states", "why_tests_cant": "A wrong exchange sign shows only for particular orbital orders and occupations in between.", "anchors": ["qmeq/qdot.py:construct_ham_hopping", "qmeq/qdot.py:construct_manybody_eigenstates"]}
{"id": "C11", "title": "Coulomb Hamiltonian has the right fermionic matrix elements", "statement": "The many-body matrix built from coulomb is the sum of U d+_m d+_n d_k d_l (plus the Hermitian conjugate entries selected by herm_c and m_less_n) in the occupation-number basis.", "quantifier": "every nsingle, every coulomb dictionary, every pair of many-body states", "why_tests_cant": "The sign depends on the relative order of four orbitals and on all occupations between them.", "anchors": ["qmeq/qdot.py:construct_ham_coulomb"]}
{"id": "C12", "title": "Lead tunnelling matrices are fermionic and Hermitian", "statement": "Tba[l] is the matrix of sum_i (t_{l,i} d+_i + conj(t_{l,i}) d_i): it is Hermitian, connects only states whose charges differ by one, and Tba[l] Tba[m] + Tba[m] Tba[l] is the scalar 2 Re sum_i t_{l,i} conj(t_{m,i}).", "quantifier": "every nsingle, every number of leads, every tleads dictionary, every state", "why_tests_cant": "Anticommutation is a statement about all pairs of leads, orbitals and states.", "anchors": ["qmeq/leadstun.py:construct_Tba"]}
{"id": "C13", "title": "Incremental parameter updates equal a fresh construction", "statement": "After any sequence of add/change calls on the quantum dot (hsingle, coulomb) or the leads (tleads) the stored many-body matrices equal those built from scratch from the stored parameter dictionaries.", "quantifier": "every history of add/change calls with any dictionaries, every initial parameter set", "why_tests_cant": "Depends on the whole history; tests try one or two calls.", "anchors": ["qmeq/qdot.py:QuantumDot.add", "qmeq/qdot.py:QuantumDot.change", "qmeq/leadstun.py:LeadsTunneling.add", "qmeq/leadstun.py:LeadsTunneling.change", "qmeq/baths.py:PhononBaths.add", "qmeq/baths.py:PhononBaths.change"]}
{"id": "C14", "title": "The many-body Hamiltonian is Hermitian", "statement": "With herm_hs and herm_c set, real on-site energies and real density-density interactions, the constructed many-body Hamiltonian is Hermitian, provided no other Coulomb entry is excluded from completion by m_less_n (l > k).", "quantifier": "every hsingle/coulomb dictionary", "why_tests_cant": "Depends on signs and the selection rule for adding conjugates, for all index quadruples.", "anchors": ["qmeq/qdot.py:construct_ham_hopping", "qmeq/qdot.py:construct_ham_coulomb"]}
{"id": "C15", "title": "Quantum-number selection rules", "statement": "Hamiltonian matrix elements vanish between states of different charge; tunnelling matrix elements vanish unless the charges differ by exactly one; electron-phonon matrices vanish between states of different charge.", "quantifier": "all parameters, all pairs of states", "why_tests_cant": "Universal over states.", "anchors": ["qmeq/qdot.py:construct_ham_hopping", "qmeq/leadstun.py:construct_Tba", "qmeq/baths.py:elph_construct_Vbbp"]}
{"id": "C16", "title": "Basis rotation block by block equals the full rotation", "statement": "Rotating the tunnelling matrices into the eigenbasis charge block by charge block (indexing 'charge') gives exactly vec^dagger Tba0 vec for the full block-diagonal eigenvector matrix, and the result is Hermitian whenever Tba0 is.", "quantifier": "every number of states, every block-diagonal set of eigenvectors, every charge-changing-by-one Tba0", "why_tests_cant": "Block boundary errors depend on the sector sizes.", "anchors": ["qmeq/leadstun.py:rotate_Tba", "qmeq/leadstun.py:construct_full_pmtr"]}
{"id": "C17", "title": "Pauli: probability is conserved", "statement": "Every column of the kernel built by the Pauli approach sums to zero (indexing without spin multiplets), so d/dt of the total probability is zero for every state vector.", "quantifier": "every system size, every choice of considered states, every value of the tunnelling rates, every number of leads", "why_tests_cant": "Conservation must hold for each column of matrices of every size.", "anchors": ["qmeq/approach/base/pauli.py:ApproachPauli.generate_coupling_terms", "qmeq/approach/kernel_handler.py:KernelHandler.set_matrix_element_pauli", "qmeq/approach/aprclass.py:Approach.generate_kern"]}
{"id": "C18", "title": "Pauli: the kernel is a rate matrix", "statement": "All off-diagonal entries of the Pauli kernel are >= 0 and all diagonal entries <= 0; entry (b, a) is the sum over leads of |T|^2 times the electron or hole factor of that transition and is zero unless the charges differ by one.", "quantifier": "every system size, all tunnelling amplitudes, temperatures, chemical potentials, bandwidths", "why_tests_cant": "Sign of every entry for every parameter value.", "anchors": ["qmeq/approach/base/pauli.py", "qmeq/specfunc/specfunc.py:func_pauli"]}
{"id": "C19", "title": "Pauli: particle current is conserved", "statement": "The sum over leads of the particle currents equals the time derivative of the mean electron number computed with the kernel, hence vanishes in any state annihilated by the kernel.", "quantifier": "every system, every state vector phi0", "why_tests_cant": "Kirchhoff's law for every system size, number of leads and parameter set.", "anchors": ["qmeq/approach/base/pauli.py:ApproachPauli.generate_current"]}
{"id": "C20", "title": "Pauli: energy current is conserved", "statement": "The sum over leads of the energy currents equals the time derivative of the mean energy computed with the kernel and vanishes in any state annihilated by the kernel; heat_current == energy_current - mulst*current.", "quantifier": "every system, every state vector phi0", "why_tests_cant": "As C19.", "anchors": ["qmeq/approach/base/pauli.py:ApproachPauli.generate_current"]}
{"id": "C21", "title": "Pauli: equilibrium is stationary and carries no current", "statement": "If all leads have the same temperature T>0 and chemical potential mu (and no transition energy is above the exponent cut-off of fermi_func) then the grand-canonical distribution exp(-(E_b - mu N_b)/T)/Z is a zero of the Pauli kernel and every particle, energy and heat current is zero in it.", "quantifier": "every system, every tunnelling amplitudes, every T>0 and mu", "why_tests_cant": "Detailed balance holds pairwise for all transitions; numerical tests see it only up to rounding for chosen systems.", "anchors": ["qmeq/approach/base/pauli.py:ApproachPauli.generate_fct", "qmeq/specfunc/specfunc.py:func_pauli", "qmeq/specfunc/specfunc.py:fermi_func"]}
{"id": "C22", "title": "Pauli: a stationary probability distribution exists", "statement": "For every Pauli kernel there is a vector with nonnegative entries summing to one that the kernel annihilates; if in addition the solution of the linear system handed to the solver is unique then it is this probability distribution.", "quantifier": "every system with at least one considered state", "why_tests_cant": "Existence over all parameter values.", "anchors": ["qmeq/approach/base/pauli.py", "qmeq/approach/aprclass.py:Approach.solve_kern"]}
{"id": "C23", "title": "Redfield and 1vN: trace is conserved", "statement": "For the Redfield and first-order von Neumann kernels, norm_vec . kern = 0: the sum of the rows of the diagonal elements vanishes in every column, whatever coherences are included and whatever the values of the principal-part and Fermi factors.", "quantifier": "every system size, every choice of considered states and included coherences, every Tba (complex), every factor array", "why_tests_cant": "All columns (populations and real/imaginary parts of coherences) for all sizes.", "anchors": ["qmeq/approach/base/redfield.py", "qmeq/approach/base/neumann1.py", "qmeq/approach/kernel_handler.py:KernelHandler.set_matrix_element"]}
{"id": "C24", "title": "Lindblad: trace is conserved", "statement": "For the Lindblad kernel norm_vec . kern = 0 in every column.", "quantifier": "every system size, every choice of considered states and coherences, every set of jump matrices", "why_tests_cant": "As C23.", "anchors": ["qmeq/approach/base/lindblad.py"]}
{"id": "C25", "title": "Particle current is conserved with coherences", "statement": "For Redfield, 1vN and Lindblad the sum over leads of the particle currents equals the time derivative of the mean electron number computed with the kernel from the same phi0; hence it vanishes in a stationary state.", "quantifier": "every system, every phi0", "why_tests_cant": "As C19 with complex coherences.", "anchors": ["qmeq/approach/base/redfield.py", "qmeq/approach/base/neumann1.py", "qmeq/approach/base/lindblad.py"]}
{"id": "C26", "title": "Energy current is conserved for Lindblad and 1vN", "statement": "For Lindblad, and for 1vN when the energy factor of a transition is its energy difference times the current factor (itype 2 and 3), the sum over leads of energy currents equals the time derivative of the mean energy.", "quantifier": "every system, every phi0", "why_tests_cant": "As C25.", "anchors": ["qmeq/approach/base/lindblad.py", "qmeq/approach/base/neumann1.py"]}
{"id": "C27", "title": "2vN: trace and particle current are conserved", "statement": "In the second-order von Neumann approach the rows of diagonal elements of the kernel sum to zero in each column, and the lead currents computed from the same first-order elements sum to zero in any stationary state, at every iteration.", "quantifier": "every system, every iteration number, every value of the first-order elements", "why_tests_cant": "As C23, at every iteration.", "anchors": ["qmeq/approach/base/neumann2.py:Approach2vN.generate_kern", "qmeq/approach/base/neumann2.py:Approach2vN.generate_current"]}
{"id": "C28", "title": "RTD: probability is conserved to every included order", "statement": "In the RTD approach every column of the effective kernel (first order, second order and off-diagonal corrections) sums to zero and the lead particle currents sum to zero in a state annihilated by the kernel.", "quantifier": "every system, every value of the integrals and tunnelling amplitudes", "why_tests_cant": "Second-order kernels are built from many diagrams; the cancellation is needed for each.", "anchors": ["qmeq/approach/base/RTD.py", "qmeq/approach/kernel_handler.py:KernelHandlerRTD"]}
{"id": "C29", "title": "Without coherences all first-order approaches give the Pauli rates", "statement": "On the populations the Redfield, 1vN and Lindblad kernels restricted to diagonal density-matrix elements equal the Pauli kernel.", "quantifier": "every system, every itype whose factors are consistent, every Hermitian Tba", "why_tests_cant": "An equality of four independently written kernels for all parameters.", "anchors": ["qmeq/approach/base/pauli.py", "qmeq/approach/base/redfield.py", "qmeq/approach/base/neumann1.py", "qmeq/approach/base/lindblad.py"]}
{"id": "C30", "title": "Matrix-free and matrix modes have the same solutions", "statement": "For every vector phi0 the residual computed in matrix-free mode is kern.phi0 - bvec of the matrix mode up to the sign of the rows of imaginary parts; in particular both vanish for exactly the same vectors.", "quantifier": "every approach (any sequence of kernel-handler calls it makes), every phi0", "why_tests_cant": "Equality of two implementations of a linear map on all inputs.", "anchors": ["qmeq/approach/kernel_handler.py:KernelHandler", "qmeq/approach/kernel_handler.py:KernelHandlerMatrixFree", "qmeq/approach/aprclass.py:Approach.generate_vec", "qmeq/approach/aprclass.py:Approach.solve_kern"]}
{"id": "C31", "title": "The replaced equation does not matter", "statement": "When norm_vec . kern = 0 the square system (row norm_row of a population replaced by the normalisation) has exactly the same solutions as the full overdetermined system kern.phi0 = 0, norm_vec.phi0 = 1, for every norm_row that is a population row; after solve_kern the attribute kern again contains the kernel.", "quantifier": "every kernel with conserved norm, every admissible norm_row, every right-hand side behaviour of the linear solver", "why_tests_cant": "Independence of an option value for all kernels.", "anchors": ["qmeq/approach/aprclass.py:Approach.solve_kern", "qmeq/approach/aprclass.py:Approach.generate_norm_vec", "qmeq/approach/aprclass.py:Approach.prepare_solver"]}
{"id": "C32", "title": "Occupation and rate factors are physical", "statement": "fermi_func takes values in [0,1], is decreasing and satisfies f(x)+f(-x)=1 inside the cut-off; func_pauli returns two nonnegative numbers that add to 2*pi inside the band and are both zero outside, for itype 1 and 3 without band dependence.", "quantifier": "every real argument", "why_tests_cant": "All reals.", "anchors": ["qmeq/specfunc/specfunc.py:fermi_func", "qmeq/specfunc/specfunc.py:func_pauli"]}
{"id": "C33", "title": "Option validation always yields a legal configuration", "statement": "Whatever strings and numbers are passed for kerntype, itype, indexing, symq, solmethod and norm_row, the validated configuration is in the documented set (including the restrictions of 2vN and RTD), validation is idempotent and legal values are not altered.", "quantifier": "all option combinations", "why_tests_cant": "All combinations of all inputs.", "anchors": ["qmeq/builder/validation.py", "qmeq/builder/builder_base.py"]}
{"id": "C34", "title": "Every solve starts from clean, correctly sized arrays", "statement": "Whatever sequence of solve, option changes and state-removal calls went before, the kernel that a solve call hands to the linear solver is the one a freshly created system with the same parameters would build.", "quantifier": "every history of calls", "why_tests_cant": "A history property: stale arrays show only after particular sequences.", "anchors": ["qmeq/approach/aprclass.py:Approach.prepare_kern", "qmeq/approach/aprclass.py:Approach.clean_arrays", "qmeq/approach/aprclass.py:Approach.solve"]}
{"id": "C35", "title": "Removing coherences keeps exactly the coherences within the window", "statement": "After remove_coherences(dE) exactly the elements with |E_b - E_bp| <= dE are included, populations keep their labels, labels remain gap-free, conjugate pairs still share a label; repeated calls keep the intersection.", "quantifier": "every energy list, every dE >= 0, every sequence of calls", "why_tests_cant": "Relabelling over all patterns of kept and dropped elements.", "anchors": ["qmeq/builder/various.py:remove_coherences"]}
{"id": "C36", "title": "Removing states and restoring them", "statement": "remove_states(dE) keeps exactly the states with energy below the ground-state energy plus dE in their charge sectors, the density-matrix labelling of the kept states is again a bijection, and use_all_states restores the labelling of a fresh system after any sequence of such calls.", "quantifier": "every energy list, every sequence of calls", "why_tests_cant": "History and size dependence.", "anchors": ["qmeq/builder/various.py:remove_states", "qmeq/builder/various.py:use_all_states"]}
{"id": "C37", "title": "Density-matrix accessors are Hermitian and faithful", "statement": "get_phi0(b, bp) == conj(get_phi0(bp, b)), get_phi0(b, b) is the population of b, elements between different charges and excluded elements are 0, and the call never raises for states of the system; the matrix rebuilt from phi0 determines phi0.", "quantifier": "every solved system, every pair of states, every kerntype", "why_tests_cant": "All pairs of states, all approaches.", "anchors": ["qmeq/builder/various.py:get_phi0", "qmeq/approach/kernel_handler.py:KernelHandler.get_phi0_element"]}
{"id": "C38", "title": "Sorting eigenstates gives a sorted permutation", "statement": "sort_eigenstates sets states_order to a permutation of all state indices that is lexicographically sorted by the requested keys; the eigenenergies themselves are untouched.", "quantifier": "every table of energies and quantum numbers, every list of keys", "why_tests_cant": "All inputs, ties included.", "anchors": ["qmeq/builder/various.py:multiarray_sort", "qmeq/builder/various.py:sort_eigenstates"]}
{"id": "C39", "title": "2vN iteration bookkeeping", "statement": "solve(niter=k) performs exactly k kernel solutions, stores k iteration records and reports niter = k-1; continuing with restartq=False by m more gives the same records as one run of k+m iterations.", "quantifier": "every k, m >= 1 (and k=0), every history of restarts", "why_tests_cant": "History property.", "anchors": ["qmeq/approach/aprclass.py:ApproachBase2vN.solve", "qmeq/approach/aprclass.py:ApproachBase2vN.iteration"]}
{"id": "C40", "title": "2vN grid interpolation is safe and exact on grid points", "statement": "Reading a first-order element at an energy never indexes outside the grid, returns zero outside the energy window, the stored value at a grid point and a value between the neighbouring ones in between (for real data).", "quantifier": "every grid size >= 2, every energy", "why_tests_cant": "Boundary rounding at both ends of the grid for all sizes.", "anchors": ["qmeq/approach/base/neumann2.py:get_at_k1", "qmeq/approach/base/neumann2.py:func_2vN"]}
{"id": "C41", "title": "Systems given directly in the many-body basis are indexed by charge", "statement": "BuilderManyBody with a list Na of charges puts state i into the charge sector of Na[i] relative to the smallest charge and never raises for integer charges.", "quantifier": "every list Na of integers", "why_tests_cant": "All lists.", "anchors": ["qmeq/builder/builder_base.py:BuilderManyBody._init_state_indexing"]}
{"id": "C42", "title": "Spin symmetry doubles the input consistently", "statement": "With symmetry='spin' the expanded hsingle, tleads and coulomb dictionaries are invariant under exchanging the two spin species and contain the given spin-up entries.", "quantifier": "every input dictionary, every nsingle", "why_tests_cant": "All dictionaries.", "anchors": ["qmeq/qdot.py:make_hsingle_dict", "qmeq/qdot.py:make_coulomb_dict", "qmeq/leadstun.py:make_tleads_dict"]}
{"id": "C43", "title": "Total-spin operator algebra", "statement": "The raising operator is the transpose of the lowering operator, their commutator is the spin projection, S^2 built from them is symmetric, has only integer entries (the floor division is exact) and commutes with raising and lowering.", "quantifier": "every even nsingle, every (charge, sz) sector", "why_tests_cant": "Sign errors are occupation dependent.", "anchors": ["qmeq/qdot.py:operator_sm", "qmeq/qdot.py:operator_sp", "qmeq/qdot.py:operator_ssquare"]}
{"id": "C44", "title": "Electron-phonon matrices are fermionic", "statement": "Vbbp[l] is the matrix of sum_ij v_{l,i,j} d+_i d_j over the entries of the dictionary (no conjugate entries are added), conserves charge and is Hermitian whenever v_{l,i,j} = conj(v_{l,j,i}).", "quantifier": "every nsingle, every velph dictionary", "why_tests_cant": "As C10.", "anchors": ["qmeq/baths.py:elph_construct_Vbbp"]}
{"id": "C45", "title": "Electron-phonon kernels conserve trace and particle number", "statement": "The phonon contributions to the Pauli, Lindblad, Redfield and 1vN kernels have vanishing column sums over the populations of each charge sector separately, so they change neither the trace nor the mean electron number.", "quantifier": "every system, every coupling matrix and factor array", "why_tests_cant": "All columns, all sizes.", "anchors": ["qmeq/approach/elph/pauli.py", "qmeq/approach/elph/lindblad.py", "qmeq/approach/elph/redfield.py", "qmeq/approach/elph/neumann1.py"]}
{"id": "C46", "title": "Kernel assembly does not depend on the order of the element loop", "statement": "Assembling the kernel over the unique density-matrix elements in any order gives the same kernel, and two different iterations never write to the same row, so the parallel loop of the compiled twin is race free.", "quantifier": "every permutation of the loop, every approach", "why_tests_cant": "All schedules.", "anchors": ["qmeq/approach/aprclass.py:Approach.generate_kern", "qmeq/approach/kernel_handler.py:KernelHandler.set_matrix_element", "qmeq/approach/c_aprclass.pyx:Approach.generate_kern"]}
{"id": "C47", "title": "First-order accessor is Hermitian", "statement": "get_phi1(l, c, b) == conj(get_phi1(l, b, c)) for states of adjacent charge and 0 for all other pairs.", "quantifier": "every solved system, all pairs of states, every lead", "why_tests_cant": "All pairs.", "anchors": ["qmeq/builder/various.py:get_phi1"]}
{"id": "C48", "title": "Second law for the Pauli approach", "statement": "In a stationary state of the Pauli kernel with positive probabilities (transition energies below the exponent cut-off of fermi_func) the entropy production is nonnegative: sum over leads of heat_current[l]/T_l <= 0.", "quantifier": "every system, all temperatures > 0 and chemical potentials, every stationary distribution", "why_tests_cant": "An inequality over all parameters.", "anchors": ["qmeq/approach/base/pauli.py", "qmeq/specfunc/specfunc.py:func_pauli"]}
{"id": "C49", "title": "Failed solves are reported and leave no stale result", "statement": "If the linear (or root) solver reports failure, success is False, phi0 is all zero and every current reported by the same solve call is zero; if it succeeds, phi0 is the returned vector, success is True and the currents are those of that vector.", "quantifier": "every solver outcome, every previous state", "why_tests_cant": "All outcomes after all histories.", "anchors": ["qmeq/approach/aprclass.py:Approach.solve_kern", "qmeq/approach/aprclass.py:Approach.solve", "qmeq/approach/aprclass.py:Approach.solve_matrix_free"]}
{"id": "C50", "title": "StateIndexingDMc labels are a bijection of ordered pairs", "statement": "With StateIndexingDMc (used by 2vN) and 'Lin'/'charge' indexing, get_ind_dm0 labels all ordered pairs of equal charge one-to-one by 0..ndm0-1 with the diagonal ones first.", "quantifier": "every choice of considered states", "why_tests_cant": "As C06.", "anchors": ["qmeq/indexing.py:StateIndexingDMc.set_mapdm"]}
{"id": "C51", "title": "change sets and add sums the requested parameters", "statement": "After a successful add call every stored parameter is its old value (0 if absent) plus the requested increment; after a successful change call every requested parameter has the requested value and every other one keeps its value.", "quantifier": "every stored dictionary, every requested dictionary, list or array, for hsingle, coulomb, tleads and velph", "why_tests_cant": "Covers all combinations of stored and requested entries, including absent and zero ones.", "anchors": ["qmeq/qdot.py:QuantumDot.add", "qmeq/qdot.py:QuantumDot.change", "qmeq/leadstun.py:LeadsTunneling.add", "qmeq/leadstun.py:LeadsTunneling.change", "qmeq/baths.py:PhononBaths.add", "qmeq/baths.py:PhononBaths.change"]}
{"id": "C52", "title": "Rotation by charge and spin projection equals the full rotation for spin-conserving leads", "statement": "With indexing 'sz', if every lead couples only states that differ by one electron with the spin of the lead (first half of the labels up, second half down), rotate_Tba gives exactly vec^dagger Tba0 vec for the block-diagonal eigenvector matrix of construct_full_pmtr, and the result is Hermitian. Amplitudes that do not conserve the spin are dropped.", "quantifier": "every even nsingle, every history of removed states, every block-diagonal set of eigenvectors, every Hermitian Tba0", "why_tests_cant": "The ranges of spin projections change at half filling and with the spin of the lead.", "anchors": ["qmeq/leadstun.py:rotate_Tba", "qmeq/leadstun.py:construct_full_pmtr"]}
{"id": "C53", "title": "Rotation of the phonon couplings equals the full rotation", "statement": "elph_rotate_Vbbp gives exactly vec^dagger Vbbp0 vec: with indexing 'charge' for couplings that conserve charge, with indexing 'sz' for couplings that conserve charge and spin projection, with indexing 'Lin' for all couplings.", "quantifier": "every number of states, every history of removed states, every block-diagonal set of eigenvectors, every coupling array (Hermitian or not)", "why_tests_cant": "Block boundary errors depend on the sector sizes.", "anchors": ["qmeq/baths.py:elph_rotate_Vbbp"]}
{"id": "C54", "title": "Block diagonalisation diagonalises the full Hamiltonian", "statement": "If eigh returns eigenvalues and a unitary matrix of eigenvectors for every Hermitian matrix, then QuantumDot.diagonalise computes energies Ea and a matrix of eigenvectors P that is unitary and satisfies H P = P diag(Ea) for the full many-body Hamiltonian, in the order of the many-body states; with indexings 'Lin' and 'charge', after any calls of add and change, H is the second-quantised Hamiltonian of the stored parameters.", "quantifier": "every number of states, every history of removed states and of parameter changes, indexings 'Lin', 'charge' and 'sz'", "why_tests_cant": "The placement of eigenvalues and eigenvectors depends on the sector sizes and on the indexing.", "anchors": ["qmeq/qdot.py:diagonalise", "qmeq/qdot.py:diagonalise_charge", "qmeq/qdot.py:construct_Ea_manybody", "qmeq/leadstun.py:construct_full_pmtr"]}
{"id": "C55", "title": "Spin multiplets of S^2 match the table of total spins", "statement": "The eigenvalues of operator_ssquare(charge, sz) are ssq*(ssq+2) for the values ssq of ssqrange(charge, sz, nsingle), ssquare_eigenstates recovers ssq from them exactly, and each has as many independent eigenvectors as the list get_lst(charge, sz, ssq) has entries.", "quantifier": "every even nsingle, every charge, every sz, every ssq", "why_tests_cant": "the number of sectors grows without bound with nsingle; the statement is a fact about representations of the spin algebra in every sector", "anchors": ["qmeq/qdot.py:operator_ssquare", "qmeq/qdot.py:ssquare_eigenstates", "qmeq/indexing.py:construct_ssqlst"]}
{"id": "C56", "title": "Phonon rates obey detailed balance", "statement": "In the Pauli approach every phonon rate is nonnegative, the rates of the two directions between states of different energy satisfy W(a->b) = exp(-(E_b-E_a)/T) W(b->a), the phonon part of the kernel is a rate matrix, and the Gibbs distribution of the bath temperature is stationary under it within each charge sector.", "quantifier": "every system, every coupling matrix, every nonnegative bath spectral function, every set of energies and temperatures", "why_tests_cant": "all energies and all sizes; the balance must hold for every pair of states", "anchors": ["qmeq/approach/elph/pauli.py", "qmeq/specfunc/specfunc_elph.py:FuncPauliElPh"]}
{"id": "C57", "title": "The four approaches agree on the phonon rates between populations", "statement": "The phonon parts of the Pauli, Lindblad, 1vN and Redfield kernels have the same elements between populations.", "quantifier": "every system, every coupling matrix, every bath", "why_tests_cant": "all sizes and degeneracies; the implementations share no code", "anchors": ["qmeq/approach/elph/pauli.py", "qmeq/approach/elph/lindblad.py", "qmeq/approach/elph/neumann1.py", "qmeq/approach/elph/redfield.py"]}
{"id": "C58", "title": "The electron and the phonon indexing objects of a builder consider the same states", "statement": "After any sequence of remove_states, remove_fock_states and use_all_states on an electron-phonon builder, si_elph lists the same states in the same charge sectors as si, and every pair of states of one charge that si labels has a label in si_elph.", "quantifier": "every number of states, every history", "why_tests_cant": "history property", "anchors": ["qmeq/builder/builder_elph.py", "qmeq/builder/various.py:use_all_states", "qmeq/builder/various.py:remove_states"]}
{"id": "C59", "title": "The extended 2vN energy grid covers all energies that are read", "statement": "For every grid point Ek the energies Ek-E[b1]+E[b] (states of one charge) and -(Ek-E[d]+E[b]) (charges that differ by two), at which the integral equation is interpolated, lie in the window of Ek_grid_ext, and Ek_grid_ext contains Ek_grid with kpnt_left points before and kpnt_right points after it.", "quantifier": "every band, number of points >= 2, extension factor >= 1, every set of energies", "why_tests_cant": "Energies outside of the window contribute zero silently.", "anchors": ["qmeq/approach/base/neumann2.py:determine_emin_emax", "qmeq/approach/base/neumann2.py:determine_grid_ext"]}
{"id": "C60", "title": "A changed 2vN energy grid takes effect", "statement": "If the bandwidth or the number of grid points is changed between calls of solve, the iterations that follow are done on the new grid (make_Ek_grid announces a restart for this case).", "quantifier": "every history of calls, every change", "why_tests_cant": "History property.", "anchors": ["qmeq/approach/base/neumann2.py:make_Ek_grid", "qmeq/approach/aprclass.py:ApproachBase2vN.solve"]}
{"id": "C61", "title": "RTD: energy currents are conserved", "statement": "In a state annihilated by the RTD kernel the lead energy currents sum to zero and the heat currents sum to minus the power sum(mu*I); they are numbers (not nan) whenever the products of tunnelling amplitudes of different leads are real.", "quantifier": "every system, every value of the integrals, amplitudes and temperatures", "why_tests_cant": "Two different correction kernels (WE1, WE2) must cancel between the leads for every system.", "anchors": ["qmeq/approach/base/RTD.py:generate_current", "qmeq/approach/base/RTD.py:generate_row_1st_energy_kernel", "qmeq/approach/base/RTD.py:generate_row_2nd_energy_kernel"]}
{"id": "C62", "title": "RTD: a decoupled lead carries no current", "statement": "A lead whose tunnelling amplitudes all vanish contributes nothing to the lead-resolved RTD kernels in any order, and its particle, energy and heat currents are zero for every density matrix.", "quantifier": "every system with any number of other leads, every value of the integrals", "why_tests_cant": "Second-order diagrams and corrections mix pairs of leads; every mixed term has to vanish.", "anchors": ["qmeq/approach/base/RTD.py:generate_col_diag_kern_2nd_order", "qmeq/approach/base/RTD.py:add_off_diag_corrections"]}
{"id": "C63", "title": "RTD: second order changes the charge by at most two", "statement": "The RTD kernel has no entry between populations of states whose charges differ by more than two, including the off-diagonal corrections.", "quantifier": "every system, every pair of states", "why_tests_cant": "Needs the index arithmetic for every system; wrong wrap-around of a negative index would show only for particular sizes.", "anchors": ["qmeq/approach/base/RTD.py:generate_kern", "qmeq/approach/kernel_handler.py:KernelHandlerRTD.add_matrix_element"]}
{"id": "C64", "title": "RTD without second order is the Pauli master equation", "statement": "If the second-order integrals vanish and no off-diagonal corrections are made, the RTD kernel equals the Pauli kernel entry by entry.", "quantifier": "every system, every set of rates", "why_tests_cant": "Two independent implementations have to agree for every system.", "anchors": ["qmeq/approach/base/RTD.py:generate_row_1st_order_kernel", "qmeq/approach/base/pauli.py:generate_coupling_terms"]}
{"id": "C65", "title": "RTD currents count each state with its charge and energy", "statement": "In the RTD approach the particle current of a lead is the sum over states of charge times rate of change of the population caused by the lead, and the energy current counts each state with its own energy.", "quantifier": "every system, every lead, every indexing, every vector of populations, also after states are removed", "why_tests_cant": "The lists of charges and energies are matched with populations by position; the tests use the indexing for which positions and states coincide.", "anchors": ["qmeq/approach/base/RTD.py:generate_LN", "qmeq/approach/base/RTD.py:generate_current"]}
{"id": "C66", "title": "Repeated RTD calculations give the result of a new object", "statement": "After any sequence of calculations, changes of parameters, changes of the considered states and changes of the option off_diag_corrections, an RTD calculation has the kernel, the matrices and the flag ImGamma which a calculation of the present system on new arrays has.", "quantifier": "every history of an RTD object, every system", "why_tests_cant": "Stale entries of arrays and flags depend on the whole history of calls; the tests make a new object for each calculation.", "anchors": ["qmeq/approach/base/RTD.py:prepare_arrays", "qmeq/approach/base/RTD.py:clean_arrays", "qmeq/approach/base/RTD.py:generate_kern", "qmeq/approach/aprclass.py:prepare_kern", "qmeq/approach/kernel_handler.py:set_matrix_list"]}
{"id": "C67", "title": "The Ozaki expansion exists when it is needed and covers all leads", "statement": "Whenever an integral of an RTD calculation needs the Ozaki expansion of the Fermi function, the poles have been calculated, and for a ratio of bandwidth and temperature not smaller than that of any lead.", "quantifier": "every history of an RTD object, all temperatures, bandwidths and amplitudes", "why_tests_cant": "The condition for making the expansion and the conditions for using it are different comparisons with different tolerances; the gap between them is a small range of temperatures.", "anchors": ["qmeq/approach/base/RTD.py:generate_kern", "qmeq/approach/base/RTD.py:set_Ozaki_params", "qmeq/specfunc/specfunc.py:integralX"]}
{"id": "C68", "title": "The zero of energy is arbitrary", "statement": "If the single-particle energies, the chemical potentials and (where they are absolute) the band edges are moved by the same amount, and all many-body energies in addition by a constant, then the kernels of the Pauli, Lindblad, Redfield, 1vN and RTD approaches do not change, for every state the particle and heat currents do not change, and the energy currents change by that amount per electron (RTD heat and energy currents: 'charge' indexing with all states considered, cf. C65).", "quantifier": "all systems, all shifts, all leads, all itype, all states; RTD with and without off-diagonal corrections, all temperatures", "why_tests_cant": "Any term which uses an energy without its chemical potential, or the energy of the wrong charge state, breaks the property; tests at fixed parameters compare with numbers produced by the code itself.", "anchors": ["qmeq/approach/base/pauli.py:generate_fct", "qmeq/approach/base/lindblad.py:generate_coupling_terms", "qmeq/approach/base/redfield.py:generate_current", "qmeq/approach/base/neumann1.py:generate_fct", "qmeq/approach/base/RTD.py:generate_kern", "qmeq/approach/base/RTD.py:generate_current", "qmeq/specfunc/specfunc.py:integralD", "qmeq/specfunc/specfunc.py:integralX"]}
{"id": "C69", "title": "Phases of states and leads do not matter for Pauli and RTD", "statement": "Many-body eigenstates, the states of the electrons in a lead and single-particle states are defined only up to phases. The transition rates of the Pauli approach, and the kernel and all currents of the RTD approach (second order, corrections from coherences and energy currents included), are the same for all choices of these phases; if one calculation raises an error, so does the other. In particular, when states of equal charge have different energies, two correct routines for the eigenvectors lead to the same rates, kernels and currents.", "quantifier": "all systems with labelled density matrices, all phases of states, leads and single-particle states, all leads, temperatures and integrals; RTD with corrections: all coherences within a charge considered", "why_tests_cant": "The phases come from a numerical library and from the user's conventions; tests see one choice. An exchange of two states or a missing conjugation in one of the many second-order diagrams is visible only with complex amplitudes and special phases.", "anchors": ["qmeq/approach/base/pauli.py:generate_fct", "qmeq/approach/base/RTD.py:generate_kern", "qmeq/approach/base/RTD.py:generate_col_diag_kern_2nd_order", "qmeq/approach/base/RTD.py:generate_row_1st_energy_kernel", "qmeq/approach/base/RTD.py:generate_row_2nd_energy_kernel", "qmeq/approach/base/RTD.py:generate_current"]}
{"id": "C70", "title": "The choice of eigenstates is arbitrary", "statement": "When many-body states of equal charge have the same energy, any orthonormal set of eigenstates may come out of the diagonalisation, always with arbitrary phases, and the operators of a lead are defined up to a phase. For the Lindblad, Redfield and 1vN approaches, provided that with a coherence also the ones it is mixed with are considered, this does not matter: the kernel in the new basis gives the time derivative of the density matrix in the new basis, stationary states go into stationary states with the same trace, and all currents are the same.", "quantifier": "all systems with labelled density matrices, all unitary changes of basis within the energies, all phases, all Hermitian tunnelling matrices (Lindblad: all), all itype, all density matrices", "why_tests_cant": "The basis comes from a numerical library; tests see one basis per platform. A missing conjugation or an exchange of two states in one of the coupling terms is visible only with complex amplitudes and coherences.", "anchors": ["qmeq/approach/base/lindblad.py:generate_coupling_terms", "qmeq/approach/base/lindblad.py:generate_current", "qmeq/approach/base/redfield.py:generate_coupling_terms", "qmeq/approach/base/redfield.py:generate_current", "qmeq/approach/base/neumann1.py:generate_coupling_terms", "qmeq/approach/base/neumann1.py:generate_current"]}
{"id": "C71", "title": "Phonons coupled diagonally only dephase", "statement": "When the phonons do not couple different many-body eigenstates of one charge, they change no population. In the Redfield and Lindblad approaches the coherence between b and b' only gets a shift of its frequency and is damped with a rate proportional to |V_bb - V_b'b'|^2 and to the noise of the baths at frequency zero, which is not negative; states that couple with the same strength keep their coherence. The Pauli kernel does not change. In 1vN a coherence is damped too.", "quantifier": "all systems with labelled density matrices, all numbers of baths, all diagonal coupling matrices, all energies, temperatures and densities of states, itype_ph 0 and 2, all density matrices", "why_tests_cant": "The terms cancel only in the sum of three loops, and the factor one half that the code uses on the diagonal enters the result; tests compare numbers obtained from the same code.", "anchors": ["qmeq/approach/elph/redfield.py:generate_coupling_terms", "qmeq/approach/elph/lindblad.py:generate_coupling_terms", "qmeq/approach/elph/neumann1.py:generate_fct", "qmeq/approach/elph/neumann1.py:generate_coupling_terms", "qmeq/approach/elph/pauli.py:generate_kern"]}
{"id": "C72", "title": "Special cases of the RTD integrals are limits of the general formula", "statement": "The functions that compute the second-order integrals of the RTD approach divide by energy differences and switch to separate formulas when these are smaller than 1e-10. With the exact digamma function the separate formulas are the limits of the general formula: for leads of equal temperature, the direct integral for deltaE -> 0, for E2 -> E1 and for both in either order, the exchange integral for deltaE -> 0, for deltaE -> E1+E2 and for both in either order; for leads of different temperature, the direct integral for z1 -> z3. Otherwise the functions are the general formula.", "quantifier": "for all energies below the overflow cut-offs, all bandwidths, both signs of p1, and all Ozaki expansions with nonzero poles", "why_tests_cant": "The special cases are reached on a set of measure zero and a wrong derivative there changes only degenerate systems; numerically the general formula cannot be evaluated close enough to tell a wrong limit from cancellation.", "anchors": ["qmeq/specfunc/specfunc.py:557-611", "qmeq/specfunc/specfunc.py:614-658", "qmeq/specfunc/specfunc.py:661-729", "qmeq/specfunc/specfunc.py:271-311"]}
{"id": "C73", "title": "Lindblad keeps density matrices positive", "statement": "With the Lindblad approach, with or without phonon baths, no state ever gets a negative probability: every solution of the equations of motion given by the kernel that starts from a positive density matrix stays positive at all later times (and such a solution exists for every start). There is a positive stationary density matrix with trace one; if the stationary density matrix with trace one is unique, it is positive and its populations lie between zero and one. The 1vN and Redfield approaches do not share this: whenever two states with one electron more are reached from a state with different rates, the evolution that starts in that state leaves the positive matrices.", "quantifier": "for all systems, energies, jump matrices of leads and phonon baths, all selections of states, 'Lin', 'charge' and 'sz' indexing (in general: when the considered coherences are closed under composition), all initial density matrices, all times", "why_tests_cant": "Positivity is a statement about all vectors and all times; a solver shows a stationary state for one parameter set, and small negative eigenvalues are indistinguishable from rounding.", "anchors": ["qmeq/approach/base/lindblad.py:54-96", "qmeq/approach/elph/lindblad.py:59-92", "qmeq/approach/base/neumann1.py:64-117", "qmeq/approach/base/redfield.py:30-83"]}
{"id": "C74", "title": "With 'ssq' indexing each spin multiplet has one unknown", "statement": "When states are indexed by charge, spin projection and total spin, the populations of two states share an unknown exactly when the states belong to the same multiplet (same charge, total spin and number). Coherences are kept only between states of equal total spin and projection; two of them share an unknown exactly when they connect the same two multiplets, with the same convention for complex conjugation. Every unknown has exactly one representative, the member with the lowest projection. There are as many population unknowns as considered states of projection 0 or 1/2. The objects are created and all calls succeed as long as the considered states form complete multiplets; the full lists do.", "quantifier": "for all even numbers of orbitals and all histories of set_statesdm, use_all_states and remove_fock_states whose last list of states consists of complete multiplets", "why_tests_cant": "The merging uses dictionaries of quantum numbers whose sizes grow combinatorially; a test compares a current for one or two orbitals, where a wrong partner or conjugation flag of a higher multiplet never appears.", "anchors": ["qmeq/indexing.py:888-983", "qmeq/indexing.py:372-417", "qmeq/indexing.py:242-284"]}
{"id": "C75", "title": "With 'ssq' indexing the approaches give the results of full indexing", "statement": "If the quantum dot and the leads are symmetric under spin rotations, the reduced equations that the Redfield, 1vN and Lindblad approaches set up with 'ssq' indexing (one unknown per spin multiplet) are equivalent to the full equations set up with 'Lin' or 'charge' indexing: every density matrix of the reduced problem is one of the full problem that treats the members of a multiplet alike, and vice versa; it changes in the same way, is stationary in both or in neither, has the same trace, and gives the same particle and energy currents of every lead.", "quantifier": "for all even numbers of orbitals, all sets of considered states consisting of complete multiplets, all lead parameters, energies and tunnelling amplitudes that are spin-symmetric, all density matrices and integration routines", "why_tests_cant": "A test compares currents for one or two orbitals and one set of parameters; the reduction relies on the commutation of the kernel with spin rotations, for multiplets of every size.", "anchors": ["qmeq/approach/base/lindblad.py:54-96", "qmeq/approach/base/neumann1.py:64-117", "qmeq/approach/base/redfield.py:30-83", "qmeq/indexing.py:888-983"]}
{"id": "C76", "title": "Diagonalisation with 'ssq' indexing yields complete spin multiplets", "statement": "With 'ssq' indexing and a Hamiltonian that conserves charge and spin, QuantumDot.diagonalise, which diagonalises only the blocks with spin projection 0 or -1/2 and constructs all other states with ladder operators, does not raise. The matrix of eigenvectors used by the rotation holds a complete orthonormal basis of eigenstates of the full Hamiltonian with the energies Ea. Each column has the charge, spin projection and total spin that the indexing assigns to its number; states that differ only in the projection are mapped to each other by S+ with the usual factor, and have equal energies.", "quantifier": "for all even numbers of orbitals, all Hermitian spin-conserving Hamiltonians (in particular all parameters expanded with symmetry='spin'), all histories of add and change, all eigensolvers that return orthonormal eigenvectors in ascending order", "why_tests_cant": "Tests use one or two orbitals per spin, where the multiplets have at most three members; the sizes of the blocks, the number of ladder steps and the normalisation factors depend on the number of orbitals.", "anchors": ["qmeq/qdot.py:875-939", "qmeq/qdot.py:338-540", "qmeq/qdot.py:165-216"]}
{"id": "C77", "title": "The change to the eigenbasis with 'ssq' indexing", "statement": "With 'ssq' indexing rotate_Tba gives P+ T P for the matrix P of eigenvectors assembled by construct_full_pmtr, if every lead changes the spin projection by its own spin; amplitudes that do not are set to zero. The result is Hermitian. elph_rotate_Vbbp gives P+ V P for couplings that conserve charge and spin projection.", "quantifier": "for all even numbers of orbitals, all matrices of eigenvectors with the shapes of the sectors, all Hermitian amplitudes, all couplings, all numbers of leads and baths", "why_tests_cant": "The vectors of one block are spread over several matrices that have to be joined in the order of total spin; a wrong order shows only for blocks with at least three values of the total spin.", "anchors": ["qmeq/leadstun.py:68-216", "qmeq/baths.py:64-129"]}
{"id": "C78", "title": "Parameters given with symmetry='spin' make a Hamiltonian that conserves the spin", "statement": "When parameters are given for the spin-up orbitals and expanded by the code to both spins, the one-particle part and the interaction part of the many-body Hamiltonian each commute with the total spin, no entry changes the spin projection, and for real on-site energies and density-density interactions the Hamiltonian is Hermitian. The entries may be given in any form the code accepts, with or without automatic conjugation and with or without the restriction m<n, as long as no entry is given twice (in another order of the operators, or together with its conjugate when that is added automatically).", "quantifier": "for all numbers of orbitals, all dictionaries, lists and arrays of one-particle and interaction parameters, all values", "why_tests_cant": "The commutation is a statement about operators on the whole Fock space; tests use density-density interactions only, for which two of the four spin combinations coincide with the other two.", "anchors": ["qmeq/qdot.py:576-677"]}
{"id": "C79", "title": "With symmetry='spin' and 'ssq' indexing the reduced equations are the full ones, starting from the parameters", "statement": "For a dot and leads whose parameters are given for one spin and expanded by the code with symmetry='spin', construction, diagonalisation with 'ssq' indexing and rotation of the amplitudes succeed; the rotated amplitudes obey the commutation relations of a spinor with the spin of the multiplets; hence the equations and currents of 1vN, Redfield and Lindblad with one unknown per pair of multiplets say the same as those with one unknown per pair of states.", "quantifier": "for all even numbers of orbitals, all numbers of leads, all dictionaries, lists and arrays of one-particle, interaction and tunnelling parameters of spin-up orbitals, all lead parameters equal for both spins, all complete sets of considered states, every eigh that returns orthonormal eigenvectors", "why_tests_cant": "The reduction relies on relative signs and norms of eigenvectors of different spin projections, which pass through the diagonalisation of S^2 and of H in each sector; a test compares numbers for one system.", "anchors": ["qmeq/leadstun.py:252-290", "qmeq/leadstun.py:68-216", "qmeq/qdot.py:576-677", "qmeq/indexing.py:888-983"]}
{"id": "C80", "title": "Lead and bath parameters are the ones asked for, equal for both spins with symmetry='spin'", "statement": "After construction and any calls of add and change, mulst, tlst and dlst have one entry per lead, each the value given at construction (zero without one), replaced by every change that names the lead and increased by every add that names it; numbers apply to all leads, a number for a bandwidth means a symmetric band, negative keys count from the end. With symmetry='spin' both spins of a lead have the same parameters. The same holds for the temperatures and cutoffs of phonon baths, which ignore the symmetry.", "quantifier": "for all numbers of leads and baths, all dictionaries with keys in range, lists with one value per lead, numbers, all sequences of calls", "why_tests_cant": "make_array works on a view of the stored array that is changed in place and then concatenated with itself; tests cover a single call with a dictionary and with a number, without symmetry.", "anchors": ["qmeq/leadstun.py:321-392", "qmeq/leadstun.py:427-435", "qmeq/leadstun.py:459-465", "qmeq/leadstun.py:488-493", "qmeq/baths.py:208-278"]}
{"id": "C81", "title": "'ssq' and 'charge' indexing give the same results for the same parameters", "statement": "For parameters given for one spin with symmetry='spin', the whole calculation can be done with indexing='ssq' and with indexing='charge'. All steps succeed in both: the dot and the leads are constructed, the dot is diagonalised and the amplitudes are rotated. The energies and eigenstates come in a different order and from different routines, but are connected by a unitary matrix between states of equal energy. The kernels of 1vN, Redfield and Lindblad of the two calculations give the same time derivative and the same stationary states for every density matrix that both can represent, with the same trace, and the same currents and energy currents in every lead.", "quantifier": "for all even numbers of orbitals, all numbers of leads, all real parameters of the dot and complex tunnelling amplitudes that fit, all routines for eigenvectors, all lead parameters equal for both spins, all density matrices", "why_tests_cant": "the tests compare the current of a few systems with stored numbers; the two indexings number the states differently, use different Hamiltonian blocks and different sets of unknowns, so that equality for all systems needs a proof that connects them.", "anchors": ["qmeq/indexing.py:888-983", "qmeq/qdot.py:409-542", "qmeq/qdot.py:729-935", "qmeq/leadstun.py:68-216", "qmeq/approach/base/neumann1.py:33-183", "qmeq/approach/base/redfield.py:27-136", "qmeq/approach/base/lindblad.py:29-145"]}
{"id": "C82", "title": "The amplitudes of 1vN and Redfield are the integrals over the lead, and treat particles and holes alike", "statement": "If the routine for principal values is right, the amplitudes of func_1vN for itype=0 are the integrals over the energies e of the band of the occupation, and of minus the share of empty states, divided by e-Ecb+i0; the energy amplitudes are the same integrals weighted with e, up to an error below T*exp(-40)+(Dp-Dm)*exp(-709.77). The imaginary part is -pi times the occupation at Ecb, if Ecb lies in the band. Exchanging electrons and holes (all energies, chemical potentials and band edges change the sign) exchanges the amplitudes for occupied and empty states up to complex conjugation, for every itype. For itype=1 the sum over occupied and empty states is the limit of wide bands of itype=0; itype=2 is itype=0 without real parts; itype=3 is itype=2 for levels in the band.", "quantifier": "for all energies, chemical potentials, positive temperatures, bands and limits, apart from levels at the edges of the band (where the integral does not exist) and at the cutoff of the Fermi function", "why_tests_cant": "the tests compare a few numbers with stored ones; a wrong sign of the logarithm or of the constant of the energy amplitudes for some range of bands gives other numbers that look as plausible.", "anchors": ["qmeq/specfunc/specfunc.py:54-129", "qmeq/specfunc/specfunc.py:180-197"]}
{"id": "C83", "title": "What coherences contribute to the RTD kernel", "statement": "With off_diag_corrections the RTD kernel of a lead differs from the one without by a sum over the pairs of states of equal charge: twice the imaginary part of the product of the two blocks W_dn and W_nd, divided by the difference of the energies. The divisor never is smaller than 1e-10 in size. In the blocks the entries of a coherence and of its complex conjugate are complex conjugates of each other. Pairs of exactly equal energy contribute nothing, so the corrections change nothing if all states of equal charge have equal energies.", "quantifier": "for all considered states, energies, tunnelling amplitudes, leads, temperatures, bandwidths and numerical routines, if all coherences between considered states of equal charge are included", "why_tests_cant": "tests with random or nearly degenerate levels do not reach exactly equal energies, where the two halves of a pair cancel instead of adding up; and the sign conventions of four matrices enter each number", "anchors": ["qmeq/approach/base/RTD.py:153-176", "qmeq/approach/base/RTD.py:657-915", "qmeq/approach/kernel_handler.py:377-398"]}
{"id": "C84", "title": "RTD's treatment of coherences is 1vN with the coherences eliminated", "statement": "For itype 1, Hermitian tunnelling amplitudes and bands symmetric around zero, the blocks W_dn and W_nd that RTD builds are those of the 1vN kernel: the populations of 1vN change by the Pauli kernel plus W_dn applied to the coherences, and populations drive the coherences of 1vN by W_nd. If every coherence follows the populations (its energy difference balances what the populations drive, tunnelling between coherences being left out), the population equations of 1vN are those of the Pauli master equation plus exactly what off_diag_corrections adds to the RTD kernel.", "quantifier": "for all considered states, energies at least 1e-10 apart within a charge (for the last part), tunnelling amplitudes, leads, temperatures, half bandwidths and values of the digamma function, if all coherences are included and no Fermi function is evaluated beyond its cut-off", "why_tests_cant": "tests compare the final currents of the two methods approximately; agreement of the two pieces of code (different loops, signs and special functions) for all systems needs the algebra", "anchors": ["qmeq/approach/base/RTD.py:153-176", "qmeq/approach/base/RTD.py:657-884", "qmeq/approach/base/neumann1.py:33-123", "qmeq/specfunc/specfunc.py:105-113", "qmeq/specfunc/specfunc.py:246-268", "qmeq/specfunc/specfunc.py:313-336"]}
{"id": "C85", "title": "Electrons and holes are treated alike by the whole calculation", "statement": "Describe the same system with holes: the states with q of N electrons become states with N-q electrons of the same energy and with the same matrix elements, chemical potentials and band edges are reflected at zero. Then the same density matrix has the same time derivative, is stationary in one calculation exactly when it is in the other, the particle currents are opposite and the energy currents are equal, for Pauli, Lindblad, Redfield and 1vN. A real constant added to both energy amplitudes of a lead changes no current.", "quantifier": "for all considered states and coherences, energies, Hermitian tunnelling amplitudes, leads, temperatures, bands, integration types, density matrices; arguments of the Fermi function at most 709.77 in size; for itype 0 the principal values as in C82, for itype 1 an even real part of the digamma function on the line Re = 1/2", "why_tests_cant": "a test would have to construct the hole version of a system and pick numbers; that occupied and empty states enter every term of the kernels and currents symmetrically is a statement about all systems", "anchors": ["qmeq/approach/base/pauli.py:31-136", "qmeq/approach/base/lindblad.py:29-145", "qmeq/approach/base/redfield.py:27-136", "qmeq/approach/base/neumann1.py:33-183", "qmeq/specfunc/specfunc.py:18-127"]}
{"id": "C86", "title": "The Hilbert transforms of 2vN are those of the broken line through the grid values", "statement": "hilbert_fredriksen (Fourier transform of the padded values, product with the kernel, inverse transform) gives at each grid point E exactly 1/pi P-integral F(x)/(E-x) dx, where F is the broken line through the values that goes to zero one step beyond the ends; nothing wraps around. get_htransf_phi1k and get_htransf_fk give this transform on the extended grid for the values on the original grid, make a new kernel exactly when the size of the grid changed, and prepare_distribution does so for the Fermi function and for one minus the Fermi function.", "quantifier": "for all numbers of grid points (at least one), all complex values, all equidistant grids, numbers of added points, leads and kernels left over from other grids", "why_tests_cant": "the tests compare a few numbers for one grid; a wrong kernel entry, sign or padding gives smooth and plausible numbers, and the exact meaning of the result on a grid is a statement about integrals", "anchors": ["qmeq/specfunc/specfunc.py:132-178", "qmeq/approach/base/neumann2.py:16-101", "qmeq/approach/base/neumann2.py:204-232"]}
{"id": "C87", "title": "The Ozaki expansion of RTD is the continued fraction of the hyperbolic tangent", "statement": "For an even size N, Ozaki fills exactly its N/2 rows, with distinct positive numbers b and positive residues R, and the sum of 4 R x/(x^2+1/b^2) is Lambert's continued fraction of tanh(x/2) cut after the number 2N-1. The Fermi function made of these poles differs from the true one by at most |x/2|^(2N+1)/(2(2N+1)((2N-1)!!)^2) and lies strictly between 0 and 1 for all energies. BW_Ozaki asks for an even size, and gives at least one pole, for every band width.", "quantifier": "for all even sizes, all energies, all band widths and every exact diagonalisation of the tridiagonal matrix", "why_tests_cant": "the tests compare one list of numbers; that a sum over eigenvalues of a matrix is a continued fraction, and how far that is from tanh, is a statement about all sizes and all energies", "anchors": ["qmeq/specfunc/specfunc.py:795-829", "qmeq/specfunc/specfunc.py:832-852"]}
{"id": "C88", "title": "polygamma is within 1e-16 of the derivatives of the digamma function", "statement": "For every complex z with positive real part and K = 0, 1, 2, 3, 4, polygamma(z, K) in exact arithmetic differs from the K-th derivative of the digamma function (logarithmic derivative of Gamma) by at most 1e-16; other orders give 0. For negative real parts this is false: at -1/2 the value for K = 1 is off by more than 1/2 (it is not even real), since the reflection uses tanh of the real part and lacks parentheses. The rest of qmeq only uses real part 1/2.", "quantifier": "for all complex arguments of positive real part and all orders", "why_tests_cant": "the tests compare a few values; a table with 30 constants, a shift that depends on the argument and an asymptotic series need a bound for the error at all arguments", "anchors": ["qmeq/specfunc/specfunc.py:338-457"]}
{"id": "C89", "title": "2vN iterates the integral equation for the first-order elements", "statement": "After a restart, N + 1 iterations of the 2vN approach give, for each density matrix, the N-th successive approximation to the solution of the 2vN integral equation written with matrices: (E_k - E_c + E_b) X = source + local term + nonlocal term, where the local term has the Hilbert transforms of the broken lines through the occupations, and the nonlocal term those of the previous approximation and of its adjoint; the first approximation is without the nonlocal term. This holds for every system and indexing history, for real density matrices. For complex ones the code takes the adjoint of the wrong matrix: it conjugates the columns of phi1k without exchanging the coherences with their conjugates.", "quantifier": "for all systems, grids, tunnelling amplitudes, histories, numbers of iterations and real density matrices", "why_tests_cant": "the tests compare numbers of one or two systems with numbers from the same code; the index arithmetic of the eight terms and the moved energies has to be right for every system", "anchors": ["qmeq/approach/base/neumann2.py:367-712", "qmeq/approach/aprclass.py"]}
{"id": "C90", "title": "2vN gives the Landauer currents of a single level", "statement": "For a single level coupled to any number of leads (at least one amplitude is not zero) no iteration of the 2vN approach raises an exception, and after any number of iterations the currents are those of the Landauer formula, summed by the trapezoidal rule on the energy grid, with the level broadening pi times the sum of the squared amplitudes and the level shift of a constant density of states in the band.", "quantifier": "for all level energies, amplitudes, numbers of leads, chemical potentials, temperatures, bands, grids, histories and numbers of iterations", "why_tests_cant": "tests compare a few numbers with a tolerance; the statement is exact and for all parameters", "anchors": ["qmeq/approach/base/neumann2.py:242-365", "qmeq/approach/base/neumann2.py:367-712"]}
{"id": "C91", "title": "The unit of energy is arbitrary in the first order approaches", "statement": "If all energies, chemical potentials, temperatures and band edges are multiplied by r^2 and all tunnelling amplitudes by r > 0 (they are in the square root of the unit of energy), then the kernels of the Pauli, Lindblad, Redfield and 1vN approaches are multiplied by r^2, so that the same states are stationary; for every state the particle currents are multiplied by r^2, the energy and heat currents by r^4 and phi1 by r. This holds for every itype and whatever the numerical integration returns for given arguments.", "quantifier": "for all systems, indexings, leads, itypes, units and density matrices", "why_tests_cant": "a test fixes one system and one pair of units and compares with a tolerance; a wrong power of the temperature in one branch of func_1vN shows only for that itype", "anchors": ["qmeq/specfunc/specfunc.py:26-129", "qmeq/approach/base/pauli.py:31-135", "qmeq/approach/base/lindblad.py:29-144", "qmeq/approach/base/redfield.py:27-135", "qmeq/approach/base/neumann1.py:33-182"]}
{"id": "C92", "title": "A lead may be divided into parts", "statement": "Let the lead l of a new list of leads be a part of the lead p(l) of the old list: the same chemical potential, temperature and band, the tunnelling amplitudes multiplied by a real x(l), with the squares of the x of the parts of each lead adding up to one. Then the Pauli, Lindblad, Redfield and 1vN kernels are equal. For every state the part l carries the fraction x(l)^2 of the particle, energy and heat current of the lead p(l), and the parts together all of it. In particular the order of the leads does not matter, and leads that are not coupled may be added.", "quantifier": "for all systems, indexings, numbers of leads, divisions of the leads, itypes and density matrices", "why_tests_cant": "a test compares one division of one system up to a tolerance; a factor stored for or read from a neighbouring lead shows only when the leads differ", "anchors": ["qmeq/approach/base/pauli.py:31-135", "qmeq/approach/base/lindblad.py:29-144", "qmeq/approach/base/redfield.py:27-135", "qmeq/approach/base/neumann1.py:33-182"]}
{"id": "C93", "title": "The stationary state of the Pauli approach is unique exactly when some state can be reached from all states", "statement": "Call a many-body state attained when it can be reached from every considered state by a sequence of tunnelling events. An event has a nonzero tunnelling amplitude of a lead and an addition energy in the band of the lead; an electron enters only at energies below the cut-off of the Fermi function. The Pauli equations with the normalisation have exactly one solution if and only if some state is attained. Then the solution is a probability distribution, and the states with positive probability are exactly the attained ones. For every norm_row, symq and history of the object solve then puts this distribution in phi0, provided the linear solver solves the systems that have one solution. If all transition energies are in the bands and below the cut-off of the Fermi function, and the states are connected by nonzero amplitudes, then all states are attained.", "quantifier": "for all indexings, systems, leads of positive temperature, options and histories of the approach object", "why_tests_cant": "a test solves a few connected systems; whether the matrix is singular depends on the graph of all transitions, and a singular matrix in floating point gives some numbers anyway", "anchors": ["qmeq/approach/base/pauli.py:31-135", "qmeq/approach/aprclass.py:298-334"]}
{"id": "C94", "title": "Levels without interaction carry independent currents in the Pauli approach", "statement": "Let the considered states be all occupations of N levels, with energies that are the sums of the energies of the occupied levels, and let each lead couple to each level with its own amplitude, whatever the other levels hold. Let every level be coupled to some lead within its band. Then the Pauli equations with the normalisation have exactly one solution: the levels are occupied independently of each other, the mean occupation of a level being the average of the Fermi functions of the leads at its energy weighted by the widths 2 pi |t|^2. The particle current of a lead is the sum over the levels of the width times the difference of the Fermi function of the lead and the mean occupation, and the energy current is the same sum weighted by the energies of the levels. These are the values phi0 and the currents hold after solve.", "quantifier": "for all numbers of levels and leads, level energies, amplitudes, chemical potentials, positive temperatures, bands, indexings, norm_row, symq and histories of the approach object", "why_tests_cant": "a test compares one or two levels with a stored number up to a tolerance; the product form of the distribution holds for exponentially many states at once", "anchors": ["qmeq/approach/base/pauli.py:31-135", "qmeq/approach/aprclass.py:298-334", "qmeq/specfunc/specfunc.py:18-51"]}
{"id": "C95", "title": "From the parameters to the currents of electrons without interaction", "statement": "Let hsingle give a one-electron Hamiltonian with the orthonormal orbitals u and energies eps, such that different sets of equally many orbitals have different sums of energies, let there be no Coulomb interaction, and let every orbital be coupled to some lead within its band. Then for 'charge' indexing the construction of the dot and of the leads, the diagonalisation, the rotation of the tunnelling amplitudes and the solution of the Pauli equations all succeed, whatever orthonormal eigenvectors the eigenvalue routine returns. The particle current of a lead is the sum over the orbitals of 2 pi |t|^2 (f - n), with t the sum of tleads times the conjugate of u, f the Fermi function of the lead at eps and n the average of the Fermi functions of the leads weighted by their widths; the energy current is the same sum weighted by eps.", "quantifier": "for all numbers of orbitals and leads, hopping matrices, tunnelling amplitudes, chemical potentials, positive temperatures, bands, forms of the arguments (dict, list, array), eigenvalue routines, norm_row, symq and histories of the approach object", "why_tests_cant": "a test compares a few small systems with stored numbers; a wrong sign or conjugate anywhere between the dictionaries and the currents can cancel in real or symmetric examples", "anchors": ["qmeq/qdot.py:74-216", "qmeq/qdot.py:729-759", "qmeq/qdot.py:875-937", "qmeq/leadstun.py:16-216", "qmeq/leadstun.py:513-525", "qmeq/approach/base/pauli.py:31-135", "qmeq/approach/aprclass.py:298-334"]}
{"id": "C96", "title": "The compiled first order approaches compute what the Python ones compute", "statement": "For the Pauli, Lindblad, Redfield and 1vN approaches: the constructor of the compiled KernelHandler succeeds without an access outside of its arrays; the compiled generate_fct, generate_norm_vec and generate_current give the numbers of the Python methods; the loop of the compiled generate_kern, whose iterations run in parallel without locks, updates only cells inside of the kernel, and its result is the Python kernel whatever the order of the memory accesses of the iterations. The same holds for the vector of the matrix-free mode.", "quantifier": "for all numbers of single particle states and leads, all kinds of indexing, histories of use_all_states and set_statesdm (with 'ssq' indexing: by complete multiplets), energies, factors, tunnelling amplitudes, vectors, symq, non-negative norm_row and interleavings of the parallel loop", "why_tests_cant": "the tests run both versions on a few systems; a data race shows up only for some schedules, and an access outside of an array without bounds checks usually goes unnoticed", "anchors": ["qmeq/approach/c_kernel_handler.pyx:25-262", "qmeq/approach/c_aprclass.pyx:175-225", "qmeq/approach/base/c_pauli.pyx:52-159", "qmeq/approach/base/c_lindblad.pyx:51-204", "qmeq/approach/base/c_redfield.pyx:43-196", "qmeq/approach/base/c_neumann1.pyx:55-234"]}
{"id": "C97", "title": "The compiled first order approaches with phonons compute what the Python ones compute", "statement": "For the Pauli, Redfield, 1vN and Lindblad approaches with electron-phonon coupling: the constructors of both compiled kernel handlers succeed without an access outside of their arrays; the compiled generate_fct gives the numbers of the Python method; the parallel loop of the compiled generate_kern updates only cells inside of the kernel and its result is the Python kernel whatever the order of the memory accesses. The same holds for the vector of the matrix-free mode.", "quantifier": "for all numbers of single particle states, leads and baths, kinds of indexing except ssq, histories of state selection made through the methods of the pair of indexing objects, energies, factors, amplitudes, vectors and interleavings of the parallel loop", "why_tests_cant": "the tests compare a few currents of one system with stored numbers, which were recorded separately for both versions; the stored numbers of the two Lindblad versions differ", "anchors": ["qmeq/approach/c_kernel_handler.pyx:25-262", "qmeq/approach/c_aprclass.pyx:187-225", "qmeq/approach/c_aprclass.pyx:274-300", "qmeq/approach/elph/c_pauli.pyx:43-128", "qmeq/approach/elph/c_lindblad.pyx:42-154", "qmeq/approach/elph/c_redfield.pyx:41-159", "qmeq/approach/elph/c_neumann1.pyx:39-207"]}
{"id": "C98", "title": "The compiled RTD approach computes what the Python one computes", "statement": "For the RTD approach, with and without the off-diagonal corrections: the constructor of the compiled kernel handler succeeds without an access outside of its arrays; the compiled generate_fct and generate_LN give the numbers of the Python methods; every update of the three parallel loops of the compiled generate_kern is inside of the arrays; after them, whatever the distribution of the iterations over the threads and the order of the memory accesses, the kernel, the matrices Wdd, WE1 and WE2 and the flag ImGamma are those of the Python method. If no state has been removed, the currents, energy currents and heat currents are those of the Python method.", "quantifier": "for all numbers of single particle states and leads, kinds of indexing except ssq (and, with corrections, except sz), histories of state selection, energies, tunnelling amplitudes, chemical potentials, bandwidths, numbers of threads, distributions of iterations over threads that have a copy of Wdd, interleavings of memory accesses; for positive temperatures that are equal or at least 1e-5 apart, and amplitudes whose products are zero or above the cut-off", "why_tests_cant": "the tests compare a few currents of one system for the numbers of threads of the machine; a race between the loops would show up in some interleavings only", "anchors": ["qmeq/approach/base/c_RTD.pyx:52-142", "qmeq/approach/base/c_RTD.pyx:168-318", "qmeq/approach/base/c_RTD.pyx:322-969", "qmeq/approach/c_kernel_handler.pyx:265-322", "qmeq/specfunc/c_specfunc.pyx:320-351", "qmeq/specfunc/c_specfunc.pyx:506-516"]}
{"id": "C99", "title": "The compiled 2vN approach computes what the Python one computes", "statement": "The constructor of the compiled kernel handler of a 2vN object succeeds without an access outside of its arrays, and solve of the compiled approach leaves the same state behind as solve of the Python approach: grid, local and iterated amplitudes, kernel, density matrix, currents, records of the iterations, flags; if one raises, the other raises the same exception at the same place. Hence whatever is done with an object of the compiled approach, it ends in a state that an object of the Python approach has after the same operations.", "quantifier": "for all numbers of single particle states and leads, 'Lin' and 'charge' indexing, histories of state selection, histories of the approach object (runs that may have raised, restarts, changes of parameters, states and options), numbers of iterations, energies, amplitudes, grids, results of the numerical routines; without matrix-free mode", "why_tests_cant": "the tests compare a few currents of one system after a fixed number of iterations; the compiled loops are written without bounds checks, so that a wrong index may go unnoticed", "anchors": ["qmeq/approach/base/c_neumann2.pyx:37-69", "qmeq/approach/base/c_neumann2.pyx:72-119", "qmeq/approach/base/c_neumann2.pyx:121-234", "qmeq/approach/base/c_neumann2.pyx:236-366", "qmeq/approach/base/c_neumann2.pyx:368-440", "qmeq/approach/c_kernel_handler.pyx:25-262"]}
{"id": "C100", "title": "The compiled special functions compute what the Python ones compute", "statement": "The compiled digamma function is the digamma function up to 1e-13 in the half-plane of positive real part, where all calls lie; compiled polygamma is the Python polygamma (exactly for orders other than zero, up to 1e-20 for order zero). func_pauli, Ozaki, the phonon functions and the integrals of RTD are the Python ones with this digamma function in place of that of scipy; func_1vN differs from the Python one by at most 1e-13 in the first two results and 1e-13 times the energy in the last two; phi and its derivatives differ from those with the exact functions by at most 1e-13 and 1e-16. BW_Ozaki gives the same poles as the Python function.", "quantifier": "for all energies, temperatures, bands, chemical potentials, complex arguments, orders, lists of poles, results of the integration and eigenvalue routines", "why_tests_cant": "the compiled digamma function is a series whose error depends on the argument in the plane, and is compared with scipy at a few points only; the tests do not go through integration types that do not exist and narrow bands", "anchors": ["qmeq/specfunc/c_specfunc.pyx:26-145", "qmeq/specfunc/c_specfunc.pyx:148-213", "qmeq/specfunc/c_specfunc.pyx:216-317", "qmeq/specfunc/c_specfunc.pyx:353-503", "qmeq/specfunc/c_specfunc_elph.pyx:22-111"]}
{"id": "C101", "title": "A compiled approach object and a Python one give the same results whatever was done with them before", "statement": "For two objects of the same class, one compiled and one Python, with the same options, considered states and parameters, solve raises the same exception or none and leaves the same phi0, success and currents, whatever assignments, changes and solves each of them has seen before; a compiled object keeps no stale C attribute, array or LAPACK solver.", "quantifier": "for all histories of both objects (assignments to symq, norm_row, solmethod, make_kern_copy, changes of parameters and states, solves), all systems, all LAPACK routines, matrix and matrix-free mode with all runs of the root finder that evaluate the equations", "why_tests_cant": "the compiled object keeps copies of the options and a solver with pointers into arrays that are replaced on some changes; only a few sequences of calls are tested, with default options", "anchors": ["qmeq/approach/c_aprclass.pyx:39-171", "qmeq/approach/c_aprclass.pyx:211-269", "qmeq/wrappers/c_lapack.pyx:23-179", "qmeq/approach/aprclass.py:60-211"]}
{"id": "C102", "title": "A failed solution is announced once", "statement": "The message about a failed solution is printed by the first solve in which the solver fails, with the text of its exception, and by no later one unless suppress_err is set to False again; the warning about a missing phi0_init is printed by the first matrix-free solve that lacks it and by no other. Printing never raises.", "quantifier": "for all sequences of solves in both modes, with any outcome of the numerical libraries, and assignments to suppress_err", "why_tests_cant": "the flags depend on the whole history of the object; failures of the solver are rare and the tests do not look at what is printed", "anchors": ["qmeq/builder/funcprop.py:90-112", "qmeq/approach/aprclass.py:298-353"]}
