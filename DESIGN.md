# Formal model of qmeq: design

Subject: `/repo` (qmeq, pure-Python part). Language: Lean 4.33.0 with single
Mathlib modules. Everything lives in `lean/Verif/`.

## Approach

* **Shallow model, function by function.** Each Python function becomes a Lean
  function over `List`, `Nat`, `Int`, `Option`, `Except` and small structures.
  Python exceptions are values (`Except PyErr`). Python list/array indexing is
  modelled with its negative wrap-around and its `IndexError`. Every definition
  cites the file and lines it models and says where it simplifies.
* **Exact arithmetic.** Floating point numbers are Mathlib's real numbers `ℝ`
  and complex numbers its `ℂ`. Rounding, overflow and `nan` are not modelled.
* **Approaches see the indexing object through a `View`.** A `View` holds the
  considered states, the sizes and the four look-up functions. `VOk v la`
  (`Verif/Spec/Labels.lean`) says that the look-ups label a density matrix
  that is block diagonal in the charge. `view_ok` (`Verif/Props/View.lean`)
  proves it for every `StateIndexingDM` object with 'Lin', 'charge' or 'sz'
  indexing, after any history of `set_statesdm`, `use_all_states` and
  `remove_fock_states` calls (the exceptions are listed under
  "Disagreements"). `PhOk` (`Verif/Spec/PhLabels.lean`) does the same for the
  labels of the phonon factor arrays. The theorems on kernels take `VOk` as hypothesis. With
  'ssq' indexing the members of a spin multiplet share a label, so `VOk` does not
  hold; these labels are described by C74.
* **Kernel assembly is a list of calls.** `generate_kern` of an approach is
  modelled as the list of kernel-handler calls it makes, in program order. The
  two handlers (`KernelHandler`, `KernelHandlerMatrixFree`) are two
  interpreters of such lists. Writes are bounds checked with Python semantics.
* **Numerical libraries are parameters.** `numpy.linalg.eigh`, `solve`,
  `lstsq`, `scipy.optimize.root`, `quad` and `digamma` are arguments of the
  model; the theorems hold for every behaviour of them, or state the needed
  behaviour as a hypothesis. `numpy.fft` is modelled by the sums that define it.
* **Specifications are separate.** Fermionic operators, Gibbs states, charges,
  etc. that appear in theorem statements are defined in `Verif/Spec/*.lean`
  without using model helpers.
* **Property theorems** live in `Verif/Props/*.lean`, apart from model
  (`Verif/Model/*.lean`) and helper lemmas (`Verif/Lemmas/*.lean`). Each has an
  `example` showing that its hypotheses are met by a concrete case.

## Trusted base

* Lean's kernel. Axioms used: `propext`, `Classical.choice`, `Quot.sound` only.
  No axioms of our own, no `sorry`, no `native_decide`, no `bv_decide`.
* The reading of the Python source: nothing was executed.
* Not modelled: floating-point rounding, numpy dtype conversions, printing (but for the messages of C102), the
  numerical libraries named above, the tests. Of the Cython twins (`*.pyx`) the
  handler and the first order approaches without (C96) and with phonons (C97) are
  modelled, RTD (C98), 2vN (C99), the special functions (C98, C100), and the life cycle
  with the LAPACK wrappers (C101, without assignments to `mfreeq`; LAPACK and `optimize.root` are arbitrary).

## Disagreements between code and properties

* C09: with 'Lin' indexing a second `remove_fock_states` call filters the full
  list again, so states removed by the first call come back
  (`c09_lin_twice_false`). With 'ssq' indexing removals are ignored
  (`c09_ssq_ignored`).

* C96: `remove_coherences` leaves `booldm0`, and the compiled `set_all_bbp` looks
  only at `booldm0`, so it writes beyond the end of `all_bbp` when the handler is
  made after coherences were removed (`c96_removed_coherences_false`). With a
  negative `norm_row`, which numpy accepts, the compiled `generate_vec` writes
  outside of the array (`c96_negative_row_false`).
* C97: `elph/c_lindblad.pyx:129` multiplies `tLbbp[l, b, a]` by the conjugate of
  `tLbbp[l, bp, a]`; the Python version, and the Lindblad form, need
  `tLbbp[l, bp, ap]`. The columns of coherences of the compiled kernel are wrong
  and probability is not conserved (`c97_lindblad_false`). The stored results of
  `tests/data_builder_elph.py` show it: the `Lindblad` currents do not add up to
  zero, the `pyLindblad` ones do. Also, the compiled `generate_fct` leaves zero
  the amplitudes of pairs that `si_elph` does not label, the Python one does not.
* C102: in matrix-free mode a root finder that gives up without an exception sets `success` to
  `False`, and no message is printed (`c102_silent_false`).
* C101: assigning `solmethod` to a compiled approach object before its first `solve` raises
  an `AttributeError`, as the solver object is made from `kern`, which is still `None`
  (`c101_solmethod_false`). With `symq=False` and `solmethod='lsmr'` it runs `dgesv` on a
  matrix that is not square and goes outside of the array (`c101_lsmr_false`); with
  `symq=True` it takes any unknown method for `'solve'`, where the Python object reports a
  failure (`c101_unknown_false`). A negative `norm_row` goes outside of the array
  (`c101_norm_row_false`, `c101_norm_row_free_false` in matrix-free mode). The replaced row of `kern` is not put back, even with
  `make_kern_copy=True` (`c101_kern_false`).
* C100: for an `itype` outside of 0..3 the compiled `func_1vN` has no `else` branch and
  reads variables that were never set (`c100_1vN_false`). For bands so narrow that the
  quadratic equation of `BW_Ozaki` has no real root, the compiled version takes the root
  of a negative number and `int` raises a `ValueError` (`c100_bw_false`). In the half-plane of
  negative real part, where it is not called, the compiled `digamma` is `polygamma` and is
  wrong by more than one half at -1/2 (`c100_digamma_left_false`).
* C98: the compiled and the Python RTD approach use different thresholds.
  `integralX` compares temperatures with the tolerance 1e-5 in `c_specfunc.pyx` and
  1e-10 in `specfunc.py` (`c98_tolerance_false`). The cut-off of the second order is
  `<=` in all four blocks of `c_RTD.pyx`, `<` in three blocks and absent in one of
  `RTD.py`. After a removal of states the Python `generate_current` fails
  because `LE` has one entry per many-body state, the compiled one takes the first
  `npauli` energies, which belong to other states, and gives a wrong energy current
  without a message. With corrections and 'sz' indexing the label of a coherence
  that is not considered is -1, and the compiled methods write in front of the
  arrays. `nbr_Wdd2_copies` is fixed in the constructor as the smaller of `npauli`
  and the number of threads; a loop executed by more threads would write
  behind the array, which the model excludes (`Exec.idle`).
* C34: the setter of `mfreeq` does not mark the object as unprepared; switching
  from matrix-free to matrix mode after a solve makes the next solve raise,
  for every approach and system (`c34_mfreeq_false`). `remove_coherences`
  changes the number of elements without setting `states_changed`, so a solve
  after it works on arrays of the old size (`c34_silent_false`).
* C49: in matrix-free mode the result of a root finder that reports failure
  becomes `phi0` (`c49_free_failure_false`), and the currents are computed
  from the vector at which the residual was evaluated last, not from `phi0`
  (`c49_free_trial_false`; the Pauli approach reads `phi0` and is not affected).

* C10: on a list by spin projection ('sz' indexing) a hopping element between the
  spin species makes the construction raise `ValueError` (`c10_sz_flip_raises`).
* C14: with `m_less_n` set (the default) entries with `l > k` are not completed by
  their conjugates, so `herm_c` does not give a Hermitian matrix
  (`c14_m_less_n_false`); the docstring announces this.
* C70: the Pauli approach gives currents that depend on which eigenstates the
  diagonalisation returns among states of equal energy (`c70_pauli_false`); this is
  inherent in leaving out the coherences and not an error of the program.
* C44: unlike `hsingle`, `velph` is not completed, and its entry `(b, i, j)` means
  `d+_i d_j` while the entry `(i, j)` of `hsingle` means `d+_j d_i`.
* C13: `qd.add(hsingle=qd.hsingle)` passes the stored dictionary itself, whose
  entries are doubled while the matrices get the increment computed afterwards, so
  both disagree (`c13_own_dict_false`). `LeadsTunneling.change` does not rebuild
  `tleads_array`, which the RTD approach reads (`c13_tleads_array_false`).
* C51: `change(coulomb=[[m, n, k, l, 0]])` changes nothing, because list rows
  with U=0 are dropped (`c51_coulomb_list_zero`).
* C42: with `herm_c=True` the mixed-spin Coulomb entries written depend on whether
  the conjugate entry was met before, for one order of the spins only
  (`c42_coulomb_herm_false`).
* C52, C77: with 'sz' and 'ssq' indexing amplitudes that do not conserve
  the spin of the lead are dropped without an error, while `construct_Tba` builds
  them (`c52_sz_spin_flip_lost`, `c77_drops`).
* C57: for degenerate states of equal charge 1vN and Redfield count phonon emission
  and absorption both (`alpha` is `+eps_elph` for both orders of the states), so the
  rate exceeds that of the Pauli approach (`c57_degenerate`, `c57_not_degenerate`).
  With 'sz' indexing Pauli, 1vN and Redfield skip phonon rates between states of
  different spin projection, Lindblad keeps them (hypothesis of
  `c57_populations_partial`).
* C73: in 1vN and Redfield a positive density matrix does not stay positive
  (`c73_1vN_false`, `c73_redfield_false`): if a state is coupled by a lead to two
  states with one electron more that are filled with different rates, the
  evolution that starts in that state has a negative probability at once. This
  is a known weakness of the approximations, not of the implementation; the
  documentation does not mention it. Lindblad is proved to be free of it.
* C74: with 'ssq' indexing `set_statesdm` accepts lists with incomplete multiplets
  (`c74_incomplete_false`). If the lowest member is missing, the population of
  the others gets the label -1, in Python the last unknown; if another member is
  missing, the position of that member is computed from a stale entry of `dictdm`,
  which can be out of range (`IndexError`) or the position of another element.
* C71: in 1vN the phonons can amplify a coherence between states of different energy, because
  the amplitude is taken at `E[bp]-E[b]` also for a process in which the state does not
  change (`c71_1vN_false`). For states of equal energy its damping is twice that of Redfield,
  since the factor one half on the diagonal of `w1fct` is not used for them
  (`c71_1vN_partial`, `c71_redfield`).
* C58: `use_all_states` changes `si` only; after a removal `si_elph` keeps the
  removed set (`c58_not_after_use_all_states`). By reading: `change_si` on a change
  of `kerntype` builds a new `si_elph` with all states.
* C35: a second `remove_coherences` call looks up the pair of a label in `inddm0`,
  which keeps the labels of before the first call; the result is a wrong set of
  elements (`c35_repeated_call_wrong`).
* C36: for `BuilderManyBody` the object is built with `nsingle=0`, so
  `use_all_states` and `remove_states` raise `IndexError` (`c36_many_body_raises`);
  with `StateIndexingPauli` states are dropped (`c36_many_body_pauli_false`).
* C37: `funcp.kerntype` keeps its default `'2vN'` in every approach, so `get_phi0`
  for Pauli and RTD reads past the populations and raises `IndexError`
  (`c37_pauli_false`, `c37_pauli_example`). After `remove_states` the
  dictionaries still hold removed states, and asking for them reads a foreign
  element (`c37_removed_false`). For `BuilderManyBody` it raises
  (`c37_many_body_raises`).
* C33: assigning `kerntype` on an existing system validates nothing
  (`c33_set_kerntype_false`, `c33_set_kerntype_raises`). `validate_mfreeq` is called
  nowhere. Solution methods are not checked: 'lsmr' and unknown names are accepted,
  nothing is solved, and the previous solution is reported with `success=True`
  (`c33_stale_solution`, `c33_stale_false`). `BuilderElPh` accepts 'RTD' and then raises
  `KeyError` (`c33_elph_rtd_raises`). A class as `kerntype` raises
  `AttributeError` (`c33_class_raises`).
* C38: `Ea_ext` is not rebuilt after `remove_fock_states`; sorting then raises
  `ValueError` (`c38_stale_raises`, `c38_stale_example`).
* C80: with `symmetry='spin'` a list with the values of all leads is accepted, and the two
  spins of a lead then have different parameters (`c80_spin_false`). A tuple as `mulst` or
  `tlst` is not recognised and stands for zeros, also in `change`.
* C41: the charge sectors are indexed by `charge` and not by `charge - min`: with
  a smallest charge above 0, or a largest below -1, the constructor raises
  `IndexError` (`c41_raises`), with a negative smallest and a non-negative largest
  charge states of different charge share a sector (`c41_wrong_sectors`).
* C39: after `solve` with `kpnt=0` the empty `Ek_grid` survives `restart` and every
  later calculation raises `IndexError` (`c39_kpnt_zero`). In matrix-free mode every
  2vN calculation raises (`c39_mfree`).
* C59: `determine_emin_emax` adds `dmin + E[d] - E[b]`, `dmax + E[d] - E[b]`, but the
  energies read are `-Ek + E[d] - E[b]`; for a band that is not symmetric about zero
  they can lie outside of the grid, where zero is returned (`c59_not_covered`).
* C60: `make_Ek_grid` is called in the zeroth iteration only, so its restart on a
  changed grid is never reached; continued iterations keep the old grid
  (`c60_ignored`).
* C65: RTD reads the energies of `LE` by the label of the population, not by
  state. With 'charge' indexing and all states considered both coincide. After
  `remove_states` the lengths differ and `generate_current` raises `ValueError`;
  with 'Lin' indexing, which is reached by switching `kerntype` of an existing
  system, the energies of other states are used. `c65_removed_false`,
  `c65_lin_false`.
* C66: an RTD object made with `off_diag_corrections=False` never works:
  `prepare_arrays` does not create `ReWdn`, but `set_matrix_list` reads it
  (`c66_without_false`); the same after a calculation without corrections and a
  change of the considered states (`c66_states_false`). `ImGamma` is reset by
  `clean_arrays` only, not when new arrays are made, so after a change of the
  states the energy currents can be undefined without reason (`c66_flag_false`).
* C67: `generate_kern` compares temperatures with `np.isclose` (tolerance about
  1e-5), `integralX` with 1e-10. In between no poles exist and the calculation
  raises `TypeError` (`c67_close_false`). `set_Ozaki_params` reads `dlst[0]` only
  (`c67_band_false`).
* C88: `polygamma` is wrong for negative real parts (`c88_negative_false`):
  `T = np.tanh(X)` should use the imaginary part, `B - 1j*A*T/(A + 1j*A*T)` lacks
  parentheses, and the sign of the reflected term is missing. Nothing in qmeq calls
  it there.
* C89: `get_at_k1(..., conj=True)` conjugates the columns of `phi1k` (one column per
  density matrix element) without exchanging the columns of a coherence and its
  conjugate, which `generate_kern` does by `shuffle`. The adjoint in the nonlocal term is
  therefore that of the solution for the complex conjugate density matrix
  (`c89_code`); for real density matrices there is no difference
  (`c89_successive_partial`). For two degenerate states with the amplitudes `1`, `i` and
  a coherence `i` the second approximation is wrong (`c89_false`).

## Properties

For each property: what is modelled, how it is proved.

| id | modelled | proof |
|----|----------|-------|
| C01 | `integer_to_binarylist`, `binarylist_to_integer`, `construct_*lst`, `enum_*lst`, `make_inverse_map`, `StateIndexing` | bit lists by induction; flattened table is a permutation of `range (2^n)`; inverse map by fold invariant |
| C02 | same | membership characterisation of the bucket-append loop; cardinality by Vandermonde-free induction |
| C03 | `sz_to_ind`, `szrange`, `construct_szlst`, `enum_szlst` | as C02 with two-level buckets; integer arithmetic for the position |
| C04 | `construct_ssqlst`, `make_quantum_numbers` | telescoping sums, unimodality of products of binomials |
| C05 | `StateIndexingDM.set_statesdm`, `set_dictdm`, `get_ind_dm0` | mixed-radix bijection, prefix sums |
| C06 | `set_mapdm` | loop invariant over the list of assigned pairs |
| C07 | `get_ind_dm1` | as C05 |
| C08 | size formulas | Vandermonde |
| C09 | `remove_fock_states` as a state machine | invariant by induction over calls; negation witness for repeated calls with 'Lin' |
| C10, C11 | `construct_ham_hopping`, `construct_ham_coulomb` | comparison with Jordan-Wigner operators, whose anticommutators are proved |
| C12 | `construct_Tba` | same operators |
| C13 | `add`/`change` on dot, leads, baths with `updateq=True`; arrays of the right dimension; `is 'spin'` read as equality | linearity of the construction in the dictionary, invariant by induction over operations |
| C14 | Hamiltonian construction | adjoint of the operators in C10/C11 |
| C15 | all three constructions | support lemmas |
| C16 | `rotate_Tba`, `construct_full_pmtr` | block decomposition of sums |
| C17-C22, C48 | Pauli approach, `func_pauli`, `fermi_func` | closed form of the assembled kernel; sums over pairs; real analysis for C21, C48; linear algebra for C22 |
| C23-C26 | Redfield, 1vN, Lindblad | complex action of a call list on a density matrix; pairwise cancellation |
| C27 | 2vN `generate_kern`, `generate_current`, `determine_phi1_phi0`, `iteration`; the solution of the integral equation is a parameter. The indexing object enters by `VOkC` (`Spec/LabelsC.lean`), proved for every `StateIndexingDMc` object in `Props/ViewC.lean` | closed form of the assignments to the kernel; pairwise cancellation; invariant over histories. `c27_solution`: the systems given to the solver have exactly the normalised stationary states as solutions, and its answer is the density matrix that `phi0` represents; `c27_conserved` puts the parts together |
| C28, C61-C65 | RTD `generate_kern`, `add_off_diag_corrections`, `generate_LN`, `generate_current`, `KernelHandlerRTD`, `phi`, `delta_phi`, `integralD`, `integralX`; the integrals `_D_integral*`, `_X_integral*`, the digamma function and the Ozaki poles are parameters (`Lib`) | the list of handler calls of a run; each call adds to a column numbers that cancel; exchange of the leads for C61; closed form of single entries for C62-C64 |
| C29 | the four first-order kernels | entry-wise comparison |
| C30 | both handlers | simulation over any call list |
| C31, C49 | `solve_kern`, `solve_matrix_free`, `solve` | linear algebra; case analysis of solver outcome |
| C32 | `fermi_func`, `func_pauli` | real analysis |
| C33 | `validation.py`, the part of the builder constructors and of `set_kerntype` that uses it, `prepare_solver`; values are none, booleans, rationals, strings, classes and unhashable objects | case analysis; for the stale solution a simulation by a solver that returns the old solution. Not stated: which legal default is chosen when no indexing is given (validation.py:40-67). A wrong program that swaps `ssq` and `charge` there survives, and one that keeps the symmetry for RTD breaks only an `example` (seeded/LOG.jsonl) |
| C34 | preparation life cycle of an approach | `solve` of a prepared object equals a state-free reference computation (`Verif/Spec/Solve.lean`), by an invariant over histories; negations for the calls that miss an invalidation |
| C35, C36 | `remove_coherences`, `remove_states`, `use_all_states` | relabelling loop invariant; negation witness for repeated `remove_coherences` |
| C37, C47 | `get_phi0`, `get_phi1` | case analysis on labels; negation witness for Pauli |
| C38 | `multiarray_sort`, `sort_eigenstates` | stable sorting by keys |
| C39, C60 | `ApproachBase2vN` (`iteration`, `solve`, `restart`, arrays), grid making | induction over iterations; invariant over histories; simulation of a used object by a new one |
| C40 | `get_at_k1`, `func_2vN` | floor arithmetic |
| C41 | `BuilderManyBody._init_state_indexing` | fold invariant; negation witness for smallest charge not 0 |
| C42 | symmetrised dictionaries, all values of `herm_c` and `m_less_n` | dictionary lemmas; for `herm_c=True` without conjugate entries the result is that of `herm_c=False`, by an invariant on the entries between the species |
| C43 | `operator_sm`, `operator_sp`, `operator_ssquare`; objects without removed states | fermionic operators |
| C44 | `elph_construct_Vbbp` | fermionic operators |
| C45 | electron-phonon kernels and factor arrays of the four approaches | as C23, charge sector by charge sector |
| C46 | call lists and handler | rows written by a call; commuting additions |
| C50 | `StateIndexingDMc` | as C06 |
| C51 | the same calls, with dictionaries, lists and arrays, with and without spin symmetry (`Spec/Request.lean` says what a call asks for, entry by entry) | every stage of the dictionaries (reading the argument, doubling the spins, adding or changing) preserves the relation `Meets` between stored entries and the request |
| C52 | `rotate_Tba` with 'sz' | as C16, with sectors by charge and spin projection |
| C53 | `elph_rotate_Vbbp` | as C16; the 'ssq' branches are C77 |
| C54 | `QuantumDot.diagonalise` without the 'ssq' branch (that is C76); `eigh` is a parameter with a contract | block decomposition; composition with C10, C11, C13 |
| C55 | `operator_ssquare` and the 'ssq' table; the theorem speaks about exact eigenvectors; `ssquare_eigenstates` with its `eigh` is part of C76 | ladder of raising and lowering matrices; rank-nullity; sizes from C04 |
| C56 | `FuncPauliElPh`, Pauli phonon kernel; the spectral function is a parameter | real analysis; entries read off from the closed form of the rows |
| C57 | `Func1vNElPh` for `itype_ph` 0 and 2 (`quad` is a parameter), Lindblad jump amplitudes, four kernels | entries between populations of each kernel; negation for degenerate states |
| C58 | `BuilderElPh` calls on `si` and `si_elph`, including the aliasing of `statesdm` (`Model/ElPhSI.lean`) | invariant over histories; negation witness |
| C59 | `determine_emin_emax`, `determine_grid_ext` | closed form of the extended grid; bounds on the ends |
| C66, C67 | the life of an RTD object: `__init__`, `prepare_kern`, `prepare_arrays`, `clean_arrays`, `generate_kern` with `set_Ozaki_params`, changes of options, parameters and states (`Model/RTDObj.lean`) | invariant over histories: cleaning the arrays of an object gives those of a new one; the poles are those for the recorded bandwidth; inversion of the loops down to one call of `integralX` for `c67_close_false` |
| C68 | the factors, kernels and currents of Pauli, Lindblad, Redfield, 1vN, RTD; the second order integrals `_D_integral_equal_T`, `_X_integral_equal_T`, `_D_integral`, `_X_integral` with `diff_phi`, `diff2_phi`, `delta_phi`, `bose`, `diff_fermi` (`Model/RTDInt.lean`; digamma, its derivatives and the Ozaki poles are parameters `Fun`) | the loops of both systems are compared step by step (`Lemmas/Congr.lean`); every energy occurs as a difference of neighbouring charges minus the chemical potential, or as a difference within a charge |
| C69 | the rates of Pauli; all of `generate_kern` and `generate_current` of RTD as modelled for C60–C66; the change of phases is `Phases` in `Spec/Phases.lean` | the two calculations are run side by side: every call of `add_matrix_elements` has the same arguments up to a phase which depends on the position only (`PRel`, `Rel`, `kap` in `Props/PhasesRTD.lean`), blocks between populations are unchanged, the blocks to and from coherences change by phases that cancel in the product with the inverse of the diagonal block. `c69_eigh` derives the phases from two routines for the eigenvectors, as for C70, if states of equal charge have different energies (`phases_of_basis`) |
| C70 | the kernels and currents of Lindblad, Redfield, 1vN (and Pauli for the negative result); the change of basis is `Eigenbasis`, `NewTba`, `NewDens` in `Spec/Basis.lean`, the conclusion `SameUpTo` | every term of the equation is a product such as `T ρ T⁺` with a factor depending on energies only, so it is carried into the new basis (`sand`, `left`, `right` in `Lemmas/Basis.lean`); currents are traces; every Hermitian matrix in the new basis is stored in some vector (`exists_dens`), Hermitian amplitudes have Hermitian counterparts (`exists_newTba`). `c70_eigh`: two routines which return ascending eigenvalues and orthonormal eigenvectors give the same energies (roots of the characteristic polynomial of each block), and the overlaps of their eigenvectors are such a change of basis; for 'charge' indexing with all states considered. `c70_pauli_false`: two orbitals of equal energy, each coupled to its own lead, carry no current in this basis and do in the basis of sums and differences |
| C71 | as C57; `DiagV` says that the couplings are diagonal in the many-body basis; the statement compares the derivatives of the density matrix given by the kernels with and without phonons | the sums over intermediate states have one term left (`CohPh.S_diag`, `LindbladPh.S_diag`); `dens_diff` turns rows of kernels into derivatives. `c71_1vN_false`: two states with energies 1 and 2 coupled with strengths 1/2 and 1 |
| C72 | specfunc.py:199-336, 557-792 (`RTDInt`); `psi` and `polygamma` are parameters, the theorems assume (for `polygamma` up to the 1e-16 of C88) that they are the digamma function (Mathlib's `Complex.digamma`) and its first two derivatives (`Fun.Exact`) | `phi` is even with derivatives `diff_phi` and `diff2_phi` (reflection and holomorphy of the Gamma function); the Bose function has a simple pole of residue one (`bose_slope`); every special case is then a difference quotient. Not covered: that the general formula is the integral it stands for, the accuracy of `polygamma` (specfunc.py:339-456, a series), and energies beyond the cut-offs 709.77 and 709.77/2 |
| C73 | as C24 and C45; the equations of motion are real differential equations for the vector of the kernel (`View.Evolves`); `View.prob` is the expectation value of a state in the density matrix; the code only solves for the stationary state, the time evolution is the meaning of the kernel | the right-hand side is `Gρ + ρG⁺` plus sums `JρJ⁺` (`GK.split`), with excluded coherences left out, which keeps a matrix positive when the considered coherences form classes (`qf_pinch`, `closed_of_reach`); `φ + ε m φ + ε² ψ` is positive for a suitable `ψ` (`keepsPos`). Time evolution: the distance to the positive matrices obeys Grönwall's inequality (`stays`). Stationary state: a separating functional of the image of the compact set of normalised positive matrices would grow at its maximum (`exists_fixed`). 1vN, Redfield: the derivative of a 2x2 block that starts from zero has a negative determinant (`Coh.not_positive`) |
| C74 | `StateIndexingDM` with 'ssq' indexing: `set_statesdm`, `set_mapdm`, `ind_qn`, `qn_ind` (`Model/SI.lean`, `Model/DM.lean`) | each multiplet (pair of multiplets) is one group of writes with one label (`gDiagS`, `gPairS`); keys of all writes differ, so each lookup finds its group (`setMapdm_ssq`); the size of a cell of the 'ssq' table depends on charge and total spin only (`ssqM_depth`), so that the other members exist |
| C75 | kernels of Redfield, 1vN, Lindblad on a `StateIndexingDM` with 'ssq' indexing, compared with the same kernels on one with 'Lin' or 'charge' indexing (`Model/Approach.lean`, `Model/DM.lean`) | the kernels are one superoperator `gen` with factors depending on lead parameters and energies only (`Lemmas/Symm.lean`); it commutes with the spin ladder operators if the system is spin-symmetric (`gen_comm`), and a density matrix commuting with them is one that does not distinguish members of multiplets (`Mult.isotropic`); so the equations of one representative determine the others. `SpinSymm` (spec) says when a system is spin-symmetric; that the code produces such systems is C79. Pauli uses `StateIndexingPauli`, not covered |
| C76 | `diagonalise` with 'ssq' indexing: `ssquare_eigenstates`, `ssquare_all_szlow`, `construct_manybody_eigenstates_ssq_all`, `construct_Ea_manybody`, `construct_full_pmtr` (`Model/Diag.lean`); `eigh` is a parameter: orthonormal eigenvectors, ascending eigenvalues, real vectors for real matrices (`EighReal`; `exists_eighReal` shows that such a function exists) | dimension of the space of each total spin (rank-nullity, unimodality of binomials) shows that the slices of the sorted eigenvectors of S² are the ones of each spin; the Hamiltonian maps each slice to itself; S⁺ and S⁻ carry the eigenvectors to the other projections with the norms of the ladder (`Lemmas/SpinStart`, `SpinLoop`, `SpinTable`, `DiagSsq`). `c76_dot`: with the blocks of any dot after `add` and `change`. `c76_spin`: from parameters expanded with `symmetry='spin'`, using C78; includes that the construction does not raise |
| C77 | the 'ssq' branches of `rotate_Tba`, `construct_full_pmtr`, `elph_rotate_Vbbp` (`Model/Rotate.lean`) | as C52, with the joined matrices of each block |
| C78 | `make_hsingle_dict`, `make_coulomb_dict` with `symmetry='spin'` (`Model/Params.lean`) | the expanded dictionary is the given one followed by a group of entries for each given entry (`coul_expand`); commutators of S⁺ with creation and annihilation operators (`Lemmas/SpinComm`); a group commutes, also when two of its entries coincide (`group_comm`) |
| C79 | composition of `QuantumDot.__init__`, `diagonalise`, `LeadsTunneling.__init__` (`tleads` only), `rotate_Tba` with the kernels of C75 | amplitudes expanded by the code are those of a spinor operator (`Lemmas/TunSsq`: commutators with S⁺, S⁻); the multiplets of C76 are complete, so matrix elements of S⁺ between eigenstates are the ones of the ladder (`Lemmas/SpinTun`), which gives `SpinSymm`; `c79_reduced` composes with C75. Lead parameters equal for both spins are the hypothesis `SameLeads`, which is C80 |
| C80 | `make_array`, `make_array_dlst`, their use in `LeadsTunneling.__init__`, `add`, `change` and `PhononBaths.__init__`, `add`, `change` (`Model/LeadPars.lean`) | arrays are tables of a function of the lead; induction over dictionaries and over calls. Observations: arguments of other types (a tuple) set `mulst` and `tlst` to zero, also in `change`, and leave `dlst` as it is; with `symmetry='spin'` a list with the values of all leads is accepted (`c80_spin_false`) |
| C81 | the composition of C79, once more with 'charge' indexing | the basis of 'ssq' and the basis of 'charge' are both complete sets of eigenstates of the Hamiltonian of the expanded parameters (`SpinBasis`, `charge_states`), so the overlaps form a unitary matrix that mixes states of equal energy only, and matrix elements of tunnelling change with it (`Lemmas/EigStates.lean`). C70 is generalised to bases numbered in another way (`EigenbasisTo`, `c81_1vN`, `c81_redfield`, `c81_lindblad`); composed with C79 this gives `SameSystem` (`Spec/SameIndexing.lean`) |
| C82 | `func_1vN`, `fermi_func`; principal values are defined in `Spec/Integrals.lean` as limits of integrals without the points close to the pole; `QuadOk` is what is assumed of `scipy.integrate.quad` with `weight='cauchy'` | `Lemmas/PV.lean` has the calculus of principal values (linearity, substitution, the pole itself, uniqueness). The logarithm in `cur1` is the principal value of the pole over the band, the constant of the energy amplitudes is the integral of the occupation (`int_fermi`, by the fundamental theorem), with the error of the two cutoffs 40 and 709.77 estimated. Observation: `itype=1` uses `Dm/T` where `itype=0` uses `(Dm-mu)/T`, so `en0` and `en1` both differ by the real constant `mu` from the limit of wide bands. A common real constant drops out of the energy currents, see `c85_constant` |
| C83 | the two loops of `generate_kern`, the generators of `W_dn`, `W_nd` and `1/L_nn`, `add_off_diag_corrections` (`Model/RTD.lean`) | the calls on the kernel handler for `(bp, b)` are the mirror images of those for `(b, bp)` up to the order (`MirSum`), which carries over to the entries; `Lnn` is diagonal with the entries of `gap`. Observation: `generate_row_inverse_Liouvillian` replaces a difference 0 by `+1e-10` for both orders of the pair, so the two halves cancel and exactly degenerate pairs drop out (`c83_degenerate`), whereas a pair split by `1e-10` contributes with the largest weight; `elif -minE < E1 <= 0` suggests that this was not intended |
| C84 | `generate_col_nondiag_kern_1st_order_dn`/`_nd`, `add_off_diag_corrections` (`Model/RTD.lean`), `func_1vN` for `itype = 1`, `Approach1vN` (`Model/Approach.lean`) | the entries of the two blocks are computed from the calls on the kernel handler (`dn_entry`, `nd_entry`); each of the factors `trans` and `stay` is `-i` times a factor of 1vN (`trans_up` … `stay_dn2`), which needs `f(-x) = 1 - f(x)` and hence that no argument is beyond the cut-off of `fermi_func`; the blocks are then the coefficients in the 1vN equations (`wdn_sum`, `wnd_sum`). `c84_follow` shows that for any populations there are coherences as `c84_elimination` asks for |
| C85 | kernels and currents of the four first-order approaches, `func_pauli`, `func_1vN` | `Spec/Holes.lean` says what the hole version of a system is (`Holes`) and what the calculations have in common (`SameForHoles`). The sums over charges are reflected (`sumR`, `sumLo`, `flip`), by which the terms with `q+1` and `q-1` change places; `c82_hole` relates the amplitudes. The energy amplitudes of holes differ from the reflected ones by a real constant that does not depend on the states (`hole_energy`); it drops out of the energy currents because `Tr T⁺Tρ` is real (`im_trace`, `c85_constant`) |
| C86 | `kernel_fredriksen`, `hilbert_fredriksen`, `get_htransf_phi1k`, `get_htransf_fk`, `prepare_distribution` (`Model/Hilbert.lean`); `numpy.fft` as the defining sums | the product of Fourier transforms is the periodic convolution (`fft_conv`, by the sum over a root of unity); the entries of the kernel are followed through the loop (`fredriksenKer_ok`), so each value has the weight `κ(i-j)/π` (`hilbert_sum`). `κ(d)` is the principal value of a triangle over a pole at the distance `d` (`pv_hat`: for `d ≠ 0` the integrand is bounded and the integral elementary, for `d = 0` the integrand is odd); triangles add up to the broken line (`broken_at`, `broken_between`) |
| C87 | `Ozaki`, `BW_Ozaki` (`Model/Ozaki.lean`); `eigh_tridiagonal` as a parameter with orthonormal eigenvectors | the first component of `(1 - i x A)⁻¹ e₀` is computed once by elimination (`us_eq`, a continued fraction) and once in the eigenbasis (`resolvent`). First components of eigenvectors do not vanish (`first_ne`), so eigenvalues are simple (`val_inj`); alternating signs give the symmetry of the spectrum (`val_neg`), and zero is no eigenvalue for even sizes (`eig_ne`), so exactly half are positive. `tanh` is the infinite continued fraction (`tail_rec`, `tanh_tail`, from power series), and each level contracts errors by `y²/(2k+3)²` (`cf_tail_err`) |
| C88 | `polygamma` (`Model/Polygamma.lean`) | the sum over poles of the derivatives of Mathlib's digamma function from Euler's limit (`gamma_exp`, `digamma_eq`, `iter_deriv` in `Lemmas/Digamma.lean`); the asymptotic expansion obeys the recurrence up to `x^(15+K)` times an explicit polynomial over `(1+x)^(12+K)` (`stir1_diff` …), which sums up to less than `1e-16` for real parts of at least 15 (`stirling`); the rounding of the decimal constants is bounded apart (`stir1_near` …); the loop adds the poles in between (`shift_ok`) |
| C89 | `TermsCalculator2vN`: `iterate`, `phi1k_local`, `phi1k_iterate`, `func_2vN`, `get_at_k1` (`Model/Neumann2Terms.lean`), run by the `ApproachBase2vN` of C39 | the calls that add to the kernel and to the nonlocal term are lists of entries (`Lemmas/Neumann2Terms.lean`), whose sums are matrix products over the considered states (`Lemmas/Neumann2Mat.lean`); the Hilbert transforms are linear, so the increments add up to the approximations (`Lemmas/Neumann2Lin.lean`, `Lemmas/Neumann2Eq.lean`); induction over the iterations (`run_solve`); witness with two states and two grid points (`Props/Neumann2Pair.lean`) |
| C90 | as C89, with `generate_kern` and `generate_current` of C27 | the equations of C89 with one level: the nonlocal terms of the two populations cancel in the sum over the leads, so each iteration has the same sums over the leads (`level_sums`, `landauer_alg`); the kernel is never zero since its imaginary part is `pi` times the sum of the squared amplitudes (`level_factor`, `level_zeroth`) |
| C91 | the factors, kernels and currents of Pauli, Lindblad, Redfield, 1vN | the calls on the kernel handler and the increments of the currents are those of the first system with their numbers multiplied (`KCall.sc`, `CEv.sc`), and the handler is linear in them (`runKern_sc`); the factors depend on quotients of energies, the constants of the energy factors are proportional to energies |
| C92 | the factors, kernels and currents of Pauli, Lindblad, Redfield, 1vN | the array of factors of the parts is that of the leads read at `p l` (`fillFct_parts`, `Lindblad.genFct_parts`); every sum over the leads in a kernel reads one or two factors, and is regrouped by `p` (`Divided.read`, `Divided.read2`); the currents by their closed forms (`genCurrent_ok`) |
| C93 | the Pauli kernel and `solve` | `Lemmas/Markov.lean`: for a matrix with non-negative off-diagonal entries and columns summing to zero, two stationary vectors of equal sum agree iff one index can be reached from all (a kernel vector of sum zero has a positive part that is closed under the transitions; without such an index two disjoint closed sets carry two distributions); `step_hop` identifies the entries of the kernel (C18) with the tunnelling events of `Spec/Hops.lean`; `c93_solve` by C31 |
| C94 | the Pauli factors, kernel, currents and `solve` | `Spec/Independent.lean` says when many-body states are occupations of levels; the product of the level occupations is stationary because gain and loss balance level by level (`levels_stationary`), it is the only solution by C93 (`levels_attained`: the set of levels with nonzero mean occupation can be reached from every state), and the currents follow by summing products over subsets (`Lemmas/Product.lean`) |
| C95 | `QuantumDot`, `LeadsTunneling`, diagonalisation, rotation, the Pauli approach and `solve` | `Lemmas/FreeFermi.lean`: creation operators of orbitals obey the anticommutation relations, the Hamiltonian counts electrons in the orbitals, every set of orbitals has a state, and by the different energies each eigenstate returned overlaps with just one of them (`free_states`), so the amplitudes between eigenstates are those of independent levels (`free_amps`, `free_levels`); then C94. The construction and rotation by C10, C12, C16, C54 |
| C96 | `c_kernel_handler.pyx`, `c_aprclass.pyx` (`generate_*`), `c_pauli.pyx`, `c_lindblad.pyx`, `c_redfield.pyx`, `c_neumann1.pyx`; `Model/Compiled.lean` with every access outside of an array an error, `Model/Parallel.lean` with interleaved loads and stores | Table of elements is the list of labelled elements in the order of the Python loops (`Lemmas/CompiledTab.lean`), coupling terms and currents equal call by call (`Lemmas/Compiled.lean`, `CompiledCur.lean`), iterations update different rows because they have different labels (`rows_disj`), hence each cell has one writer and the sum of its updates is the result of every interleaving (`Lemmas/Parallel.lean`, `CompiledRun.lean`, `CompiledKern.lean`) |
| C97 | `elph/c_pauli.pyx`, `elph/c_lindblad.pyx`, `elph/c_redfield.pyx`, `elph/c_neumann1.pyx` and the second handler of `c_aprclass.pyx`; `Model/CompiledElPh.lean` | The table of the second handler is the list of pairs that `si_elph` labels (`CElReady.table`), coupling terms equal call by call (`Lemmas/CompiledElPhCoup.lean`), then the parallel loop as in C96. For Lindblad the two kernels differ by terms that vanish on populations (`pop_columns`, `CLindbladPh.S_pop`); two levels with a dephasing bath witness the difference |
| C98 | `base/c_RTD.pyx`, `KernelHandlerRTD` of `c_kernel_handler.pyx`, `integralD`, `integralX`, `diag_matrix_multiply` of `c_specfunc.pyx`; `Model/CompiledRTD.lean`, executions with `PEndFrom` of `Model/Parallel.lean` | The generators make the same calls (`Lemmas/CompiledRTD.lean`); the updates of different threads or iterations touch different cells: by the copy of `Wdd` in the first loop, by the row or column of the state in the second, by the label of the coherence in the third (`Lemmas/CompiledRTDExec.lean`, `CompiledRTDSum.lean`); hence every interleaving ends with the sums of the updates, which are the sums of the Python calls (`CompiledRTDRun.lean`, `CompiledRTDEnd.lean`) |
| C99 | `base/c_neumann2.pyx` with the handler of `c_kernel_handler.pyx` for `StateIndexingDMc` objects; `Model/CompiledNeumann2.lean` | The handler is made (`handler`); every compiled method equals the Python one on a uniform grid of at least two points (`Lemmas/CompiledNeumann2.lean`: the window of `func_2vN`, `get_at_k1`, the entries of `phi1k_local` and `phi1k_iterate`, the integration); the grid is uniform whenever these methods are called, an invariant over the nine steps of `iteration` and over histories (`Hold`, `Mid` in `Props/CompiledNeumann2.lean`) |
| C100 | `c_specfunc.pyx:26-317, 353-503`, `c_specfunc_elph.pyx`; `Model/CompiledSpecfunc.lean` | `digamma`: the recurrence with real numbers is the polynomial (`poly_eq`), `clog` is the logarithm in the half-plane (`clog_eq`), and the expansion obeys the functional equation up to terms that sum to less than 1e-13 (`stir_bound` in `Lemmas/CompiledSpecfunc.lean`, as in C88 but from real part 8 on); `polygamma`: the tables agree but for column zero; the integrals: the loops are sums (`fold_sum`); `BW_Ozaki`: the formula for the root, truncated, with the opposite sign |
| C101 | `c_aprclass.pyx:39-171, 211-269`, `c_lapack.pyx`; `Model/CompiledSolve.lean` on top of `Model/Solve.lean` | invariant of the life cycle: a prepared object has C attributes equal to the options and a solver of the selected kind that points to the present arrays (`CInv`, `opC_inv`); hence one `solve` is the reference computation `Ref.solve` (`csolve_matrix`), or `Ref.solveFree` in matrix-free mode (`csolve_free`), as that of a Python object is (C34). An access outside of an array is taken to stop the method |
| C102 | `funcprop.py:90-112`, `aprclass.py:298-353` (what is printed); `Model/FuncProp.lean` | the flags after any solves are the disjunction of what happened (`session_solves`); one `solve` by cases (`solve_eq`); everything printed by induction over the solves (`session_out`) |
