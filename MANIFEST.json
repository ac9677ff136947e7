{
 "claims": [
  {
   "property": "C01",
   "status": "proved",
   "theorems": [
    "Verif.c01_roundtrip"
   ],
   "note": "every n>=1 and every indexing string, right after construction; after removals see C09"
  },
  {
   "property": "C02",
   "status": "proved",
   "theorems": [
    "Verif.c02_charge_lists",
    "Verif.c02_cover"
   ],
   "note": "after removals see C09"
  },
  {
   "property": "C03",
   "status": "proved",
   "theorems": [
    "Verif.c03_sz_lists",
    "Verif.c03_cover"
   ],
   "note": "after removals see C09"
  },
  {
   "property": "C04",
   "status": "proved",
   "theorems": [
    "Verif.c04_ssq_refines",
    "Verif.c04_multiplets",
    "Verif.c04_dicts"
   ],
   "note": "dictionaries after removals see C09"
  },
  {
   "property": "C05",
   "status": "proved",
   "theorems": [
    "Verif.c05_raw_bijection",
    "Verif.c05_total"
   ],
   "note": "all objects reachable by set_statesdm, use_all and removals (second removal with 'Lin' excluded, see C09); for 'ssq' under the condition that the calls return"
  },
  {
   "property": "C06",
   "status": "proved",
   "theorems": [
    "Verif.c06_labels",
    "Verif.c05_total"
   ],
   "note": "same histories as C05"
  },
  {
   "property": "C07",
   "status": "proved",
   "theorems": [
    "Verif.c07_dm1_bijection"
   ],
   "note": "same histories as C05, all classes"
  },
  {
   "property": "C08",
   "status": "proved",
   "theorems": [
    "Verif.c08_sizes"
   ],
   "note": "exact division in place of the float division in the code"
  },
  {
   "property": "C09",
   "status": "partial",
   "theorems": [
    "Verif.c09_remove_history_partial",
    "Verif.c09_out_of_range",
    "Verif.c09_ssq_ignored",
    "Verif.c09_lin_twice_false"
   ],
   "note": "'Lin' indexing with two calls violates the property (c09_lin_twice_false); 'ssq' ignores removals"
  },
  {
   "property": "C10",
   "status": "proved",
   "theorems": [
    "Verif.c10_hopping",
    "Verif.c10_hopping_sz",
    "Verif.c10_list",
    "Verif.c10_sz_flip_raises"
   ],
   "note": "labels are natural numbers in range; lists by spin projection need hopping that conserves spin, otherwise ValueError (proved)"
  },
  {
   "property": "C11",
   "status": "proved",
   "theorems": [
    "Verif.c11_coulomb",
    "Verif.c11_list"
   ],
   "note": "labels are natural numbers in range"
  },
  {
   "property": "C12",
   "status": "proved",
   "theorems": [
    "Verif.c12_tba",
    "Verif.c12_hermitian",
    "Verif.c12_charge",
    "Verif.c12_anticommutator"
   ],
   "note": "anticommutator for objects without removed states"
  },
  {
   "property": "C13",
   "status": "partial",
   "theorems": [
    "Verif.c13_dot_partial",
    "Verif.c13_dot_succeeds",
    "Verif.c13_tba",
    "Verif.c13_vbbp",
    "Verif.c13_tleads_array_partial",
    "Verif.c13_own_dict_false",
    "Verif.c13_tleads_array_false"
   ],
   "note": "the negation is proved for passing the dot its own dictionary and for tleads_array after changes; all other histories are proved"
  },
  {
   "property": "C14",
   "status": "proved",
   "theorems": [
    "Verif.c14_hermitian",
    "Verif.c14_m_less_n_false"
   ],
   "note": "entries that m_less_n excludes from completion must be density-density; without that condition the negation is proved"
  },
  {
   "property": "C15",
   "status": "proved",
   "theorems": [
    "Verif.c15_hamiltonian",
    "Verif.c12_charge",
    "Verif.c44_charge"
   ],
   "note": ""
  },
  {
   "property": "C16",
   "status": "proved",
   "theorems": [
    "Verif.c16_charge",
    "Verif.c16_agree",
    "Verif.c16_tba",
    "Verif.c16_lin"
   ],
   "note": "Hermitian Tba0: the code fills the lower blocks with the conjugate of the upper ones"
  },
  {
   "property": "C17",
   "status": "proved",
   "theorems": [
    "Verif.c17_probability",
    "Verif.view_ok"
   ],
   "note": "every indexing object that labels a density matrix (VOk; view_ok derives it for 'Lin','charge','sz' objects of any history), every factor array"
  },
  {
   "property": "C18",
   "status": "proved",
   "theorems": [
    "Verif.c18_rate_matrix"
   ],
   "note": "Hermitian Tba assumed"
  },
  {
   "property": "C19",
   "status": "proved",
   "theorems": [
    "Verif.c19_particle_current"
   ],
   "note": "every factor array, every vector"
  },
  {
   "property": "C20",
   "status": "proved",
   "theorems": [
    "Verif.c20_energy_current"
   ],
   "note": "every factor array, every vector"
  },
  {
   "property": "C21",
   "status": "proved",
   "theorems": [
    "Verif.c21_equilibrium"
   ],
   "note": "transition energies below the cut-off of fermi_func; above it fermi_func is exactly 0 and detailed balance holds only up to exp(-709)"
  },
  {
   "property": "C22",
   "status": "proved",
   "theorems": [
    "Verif.c22_stationary",
    "Verif.c22_solution"
   ],
   "note": "Hermitian Tba; the second theorem is about the system handed to the solver after any history of calls"
  },
  {
   "property": "C23",
   "status": "proved",
   "theorems": [
    "Verif.c23_trace_1vN",
    "Verif.c23_trace_redfield"
   ],
   "note": "any Tba, any factors, any label structure satisfying VOk (view_ok: every reachable indexing object)"
  },
  {
   "property": "C24",
   "status": "proved",
   "theorems": [
    "Verif.c24_trace_lindblad"
   ],
   "note": "any jump matrices"
  },
  {
   "property": "C25",
   "status": "proved",
   "theorems": [
    "Verif.c25_current_1vN",
    "Verif.c25_current_redfield",
    "Verif.c25_c26_lindblad"
   ],
   "note": "Hermitian Tba for 1vN and Redfield"
  },
  {
   "property": "C26",
   "status": "proved",
   "theorems": [
    "Verif.c25_c26_lindblad",
    "Verif.c26_energy_current_1vN"
   ],
   "note": "1vN for every itype: the real constants of itype 0 and 1 cancel in the sum"
  },
  {
   "property": "C27",
   "status": "proved",
   "theorems": [
    "Verif.VN2.c27_trace",
    "Verif.VN2.c27_current",
    "Verif.VN2.c27_hermitian",
    "Verif.VN2.c27_iteration",
    "Verif.VN2.c27_solution",
    "Verif.VN2.c27_conserved"
   ],
   "note": "currents: for stationary states that are Hermitian matrices; c27_hermitian shows that a unique normalised stationary state is one; c27_solution and c27_conserved: for one iteration, what the solver is asked and what follows for its answer (with symq the replaced row has to be that of a population)"
  },
  {
   "property": "C28",
   "status": "proved",
   "theorems": [
    "Verif.RTD.c28_columns",
    "Verif.RTD.c28_total",
    "Verif.RTD.c28_current",
    "Verif.RTD.c28_runs",
    "Verif.RTD.c28_state"
   ],
   "note": "the second-order integrals are parameters; Lin, charge and sz indexing"
  },
  {
   "property": "C29",
   "status": "proved",
   "theorems": [
    "Verif.c29_populations"
   ],
   "note": "Hermitian Tba, itype 0 to 3"
  },
  {
   "property": "C30",
   "status": "proved",
   "theorems": [
    "Verif.c30_matrix_free",
    "Verif.c30_calls"
   ],
   "note": "the four first-order approaches without phonons; any norm_row inside the array"
  },
  {
   "property": "C31",
   "status": "proved",
   "theorems": [
    "Verif.c31_square",
    "Verif.c31_overdetermined",
    "Verif.c31_solve"
   ],
   "note": "any kernel with conserved norm; c31_solve for objects of the four first-order approaches after any history"
  },
  {
   "property": "C32",
   "status": "proved",
   "theorems": [
    "Verif.c32_fermi",
    "Verif.c32_pauli"
   ],
   "note": "over the reals"
  },
  {
   "property": "C33",
   "status": "partial",
   "theorems": [
    "Verif.c33_legal",
    "Verif.c33_unchanged",
    "Verif.c33_idempotent",
    "Verif.c33_itype_ph",
    "Verif.c33_mfreeq",
    "Verif.c33_class_found",
    "Verif.c33_solmethod_partial",
    "Verif.c33_unhashable_raises",
    "Verif.c33_class_raises",
    "Verif.c33_elph_rtd_raises",
    "Verif.c33_set_kerntype_false",
    "Verif.c33_set_kerntype_raises",
    "Verif.c33_stale_solution",
    "Verif.c33_stale_false"
   ],
   "note": "kerntype, itype, indexing at construction, for every string and every hashable value; violated for later assignments to kerntype, for solution methods (unknown ones are accepted and return the previous solution), for 'RTD' with BuilderElPh and for classes passed as kerntype; norm_row is not validated by the code"
  },
  {
   "property": "C34",
   "status": "partial",
   "theorems": [
    "Verif.c34_clean_matrix_partial",
    "Verif.c34_clean_free_partial",
    "Verif.c34_mfreeq_false",
    "Verif.c34_silent_false"
   ],
   "note": "holds for histories that neither assign mfreeq nor change the indexing object without setting states_changed; for those the negation is proved. solmethod 'lsmr' (never computed by the code) excluded"
  },
  {
   "property": "C35",
   "status": "partial",
   "theorems": [
    "Verif.c35_remove_coherences",
    "Verif.c35_view_ok",
    "Verif.c35_repeated_call_wrong"
   ],
   "note": "one call after any history of set_statesdm, use_all_states and remove_fock_states is proved ('ssq' and StateIndexingPauli, which has no coherences, excluded); for a second call the negation is proved"
  },
  {
   "property": "C36",
   "status": "partial",
   "theorems": [
    "Verif.c36_remove_states",
    "Verif.c36_restore",
    "Verif.c36_restore_lookup",
    "Verif.c36_many_body_raises",
    "Verif.c36_many_body_pauli_false"
   ],
   "note": "systems without removed Fock states for the restoring part; for StateIndexingPauli and StateIndexingDMc empty lists remain at the end of chargelst and statesdm; for BuilderManyBody both calls raise or drop states (negations proved)"
  },
  {
   "property": "C37",
   "status": "partial",
   "theorems": [
    "Verif.c37_hermitian",
    "Verif.c37_values",
    "Verif.c37_determines",
    "Verif.c37_2vN",
    "Verif.phiOk_reach",
    "Verif.phiOk_coh",
    "Verif.c37_pauli_false",
    "Verif.c37_pauli_example",
    "Verif.c37_removed_false",
    "Verif.c37_many_body_raises"
   ],
   "note": "proved for the approaches whose phi0 holds all elements (Lindblad, Redfield, 1vN, 2vN), after any history of set_statesdm, use_all_states, remove_fock_states and one remove_coherences; for Pauli and RTD, for removed Fock states and for BuilderManyBody the negation is proved; 'ssq' excluded"
  },
  {
   "property": "C38",
   "status": "proved",
   "theorems": [
    "Verif.c38_sorted",
    "Verif.c38_properties",
    "Verif.c38_default",
    "Verif.c38_stale_raises",
    "Verif.c38_stale_example"
   ],
   "note": "all indexings including 'ssq', after any history of removals and of earlier sorting calls with other energies; a removal after the first sorting call leaves Ea_ext with the old number of columns and the next call raises (c38_stale_raises)"
  },
  {
   "property": "C39",
   "status": "proved",
   "theorems": [
    "Verif.VN2.c39_count",
    "Verif.VN2.c39_zero",
    "Verif.VN2.c39_continue",
    "Verif.VN2.c39_portions",
    "Verif.VN2.c39_success",
    "Verif.VN2.c39_restart",
    "Verif.VN2.c39_mfree",
    "Verif.VN2.c39_kpnt_zero"
   ],
   "note": "counts for calls that raise nothing; c39_success gives conditions for that, c39_restart shows that a restarted calculation does not depend on the history; calculations in matrix-free mode and after kpnt=0 always raise"
  },
  {
   "property": "C40",
   "status": "proved",
   "theorems": [
    "Verif.VN2.c40_outside",
    "Verif.VN2.c40_inside",
    "Verif.VN2.c40_gridpoint",
    "Verif.VN2.c40_between"
   ],
   "note": "uniform grids (which the code makes, see gridExt_eq), exact arithmetic"
  },
  {
   "property": "C41",
   "status": "partial",
   "theorems": [
    "Verif.c41_sectors_partial",
    "Verif.c41_raises",
    "Verif.c41_wrong_sectors"
   ],
   "note": "holds when the smallest charge is 0 or the largest is -1; in all other cases the negation is proved"
  },
  {
   "property": "C42",
   "status": "partial",
   "theorems": [
    "Verif.c42_hsingle",
    "Verif.c42_tleads",
    "Verif.c42_coulomb_same",
    "Verif.c42_coulomb_plain_partial",
    "Verif.c42_coulomb_less_partial",
    "Verif.c42_coulomb_herm_plain_partial",
    "Verif.c42_coulomb_herm_less_partial",
    "Verif.c42_coulomb_herm_false"
   ],
   "note": "all flags; coulomb with herm_c=True needs that no entry is given together with its conjugate, otherwise the negation is proved"
  },
  {
   "property": "C43",
   "status": "proved",
   "theorems": [
    "Verif.c43_lowering",
    "Verif.c43_raising",
    "Verif.c43_ends",
    "Verif.c43_transpose",
    "Verif.c43_commutator",
    "Verif.c43_ssquare",
    "Verif.c43_exact",
    "Verif.c43_symmetric",
    "Verif.c43_commutes"
   ],
   "note": "for new objects with 'sz' or 'ssq' indexing; after remove_fock_states with 'sz' indexing the functions raise ValueError when a target state has been removed"
  },
  {
   "property": "C44",
   "status": "proved",
   "theorems": [
    "Verif.c44_vbbp",
    "Verif.c44_charge",
    "Verif.c44_hermitian"
   ],
   "note": "the code adds no conjugate entries; Hermitian if the dictionary is"
  },
  {
   "property": "C45",
   "status": "proved",
   "theorems": [
    "Verif.c45_pauli",
    "Verif.c45_lindblad",
    "Verif.c45_1vN",
    "Verif.c45_redfield",
    "Verif.c45_current_pauli",
    "Verif.c45_current_lindblad",
    "Verif.c45_current_1vN",
    "Verif.c45_current_redfield"
   ],
   "note": "kernel minus kernel without phonons; also: lead currents still sum to zero in a stationary state"
  },
  {
   "property": "C46",
   "status": "proved",
   "theorems": [
    "Verif.c46_order"
   ],
   "note": "the four first-order approaches without phonons; any permutation of the calls, hence any interleaving of the iterations"
  },
  {
   "property": "C47",
   "status": "proved",
   "theorems": [
    "Verif.c47_hermitian",
    "Verif.c47_coherences"
   ],
   "note": "'Lin', 'charge' and 'sz' indexing, any history of set_statesdm, use_all_states and remove_fock_states; c47_coherences: remove_coherences does not change the accessor"
  },
  {
   "property": "C48",
   "status": "proved",
   "theorems": [
    "Verif.c48_second_law"
   ],
   "note": "same cut-off condition as C21, Hermitian Tba"
  },
  {
   "property": "C49",
   "status": "partial",
   "theorems": [
    "Verif.c49_matrix_partial",
    "Verif.c49_free_partial",
    "Verif.c49_free_failure_false",
    "Verif.c49_free_trial_false"
   ],
   "note": "matrix mode proved; in matrix-free mode the claim is false: a failed root result becomes phi0, and currents are those of the last trial vector"
  },
  {
   "property": "C50",
   "status": "proved",
   "theorems": [
    "Verif.c50_dmc_labels",
    "Verif.c05_total"
   ],
   "note": "same histories as C05"
  },
  {
   "property": "C51",
   "status": "partial",
   "theorems": [
    "Verif.c51_hsingle",
    "Verif.c51_tleads",
    "Verif.c51_velph",
    "Verif.c51_coulomb",
    "Verif.c51_coulomb_spin_partial",
    "Verif.c51_coulomb_list_zero"
   ],
   "note": "for __init__, add and change and dictionaries, lists and arrays, hsingle, tleads and velph with and without spin symmetry, coulomb without; missing: coulomb elements between the spin species with symmetry (their stored values are C42); a coulomb list row with U=0 is ignored by change (negation proved)"
  },
  {
   "property": "C52",
   "status": "proved",
   "theorems": [
    "Verif.c52_sz",
    "Verif.c52_sz_drops",
    "Verif.c52_sz_spin_flip_lost"
   ],
   "note": "amplitudes that do not conserve the spin of the lead are dropped; the disagreement with the full rotation is proved with a witness"
  },
  {
   "property": "C53",
   "status": "proved",
   "theorems": [
    "Verif.c53_charge",
    "Verif.c53_sz",
    "Verif.c16_lin"
   ],
   "note": "the branch for 'ssq' is modelled but not covered"
  },
  {
   "property": "C54",
   "status": "proved",
   "theorems": [
    "Verif.c54_charge",
    "Verif.c54_sz",
    "Verif.c54_dot"
   ],
   "note": "c54_dot (second-quantised Hamiltonian after any history) for 'Lin' and 'charge'; 'ssq' not modelled; eigh is a parameter with the stated contract"
  },
  {
   "property": "C55",
   "status": "proved",
   "theorems": [
    "Verif.c55_eigenvalues",
    "Verif.c55_multiplicity"
   ],
   "note": ""
  },
  {
   "property": "C56",
   "status": "proved",
   "theorems": [
    "Verif.c56_rate_nonneg",
    "Verif.c56_detailed_balance",
    "Verif.c56_rate_matrix",
    "Verif.c56_gibbs"
   ],
   "note": "spectral functions nonnegative, eps_elph >= 0, energy differences at least eps_elph*T for the balance as stated in the theorem"
  },
  {
   "property": "C57",
   "status": "partial",
   "theorems": [
    "Verif.c57_populations_partial",
    "Verif.c57_degenerate",
    "Verif.c57_not_degenerate"
   ],
   "note": "states of one charge with different energies, phonon couplings only between states that share a label; for degenerate states 1vN and Redfield add a wrong rate (negation proved)"
  },
  {
   "property": "C58",
   "status": "partial",
   "theorems": [
    "Verif.c58_consistent_partial",
    "Verif.c58_total",
    "Verif.c58_not_after_use_all_states"
   ],
   "note": "false between use_all_states and the next removal (negation proved); otherwise proved for 'Lin', 'charge' and 'sz' indexing"
  },
  {
   "property": "C59",
   "status": "partial",
   "theorems": [
    "Verif.VN2.c59_same",
    "Verif.VN2.c59_pair_partial",
    "Verif.VN2.c59_not_covered"
   ],
   "note": "pairs of states with charges that differ by two: only for bands symmetric about zero; the negation is proved for another band"
  },
  {
   "property": "C60",
   "status": "partial",
   "theorems": [
    "Verif.VN2.c60_restart_partial",
    "Verif.VN2.c60_ignored"
   ],
   "note": "holds for restartq=True; with restartq=False the change is ignored"
  },
  {
   "property": "C61",
   "status": "proved",
   "theorems": [
    "Verif.RTD.c61_energy",
    "Verif.RTD.c61_heat",
    "Verif.RTD.c61_defined"
   ],
   "note": "as C28"
  },
  {
   "property": "C62",
   "status": "proved",
   "theorems": [
    "Verif.RTD.c62_kernel",
    "Verif.RTD.c62_current"
   ],
   "note": "as C28"
  },
  {
   "property": "C63",
   "status": "proved",
   "theorems": [
    "Verif.RTD.c63_range"
   ],
   "note": "with corrections: all coherences are included (Lin and charge indexing)"
  },
  {
   "property": "C64",
   "status": "proved",
   "theorems": [
    "Verif.RTD.c64_pauli",
    "Verif.RTD.c64_current",
    "Verif.RTD.c64_energy_partial"
   ],
   "note": "as C28; the statement is about kernels; the theorems on the currents are additional"
  },
  {
   "property": "C65",
   "status": "partial",
   "theorems": [
    "Verif.RTD.c65_LN",
    "Verif.RTD.c65_current",
    "Verif.RTD.c65_own_labels",
    "Verif.RTD.c65_energy_partial",
    "Verif.RTD.c65_lin_false",
    "Verif.RTD.c65_removed_false"
   ],
   "note": "particle currents: all indexings but ssq; energy currents: only if labels and states coincide (charge indexing, all states considered), otherwise the energies of other states are used or an error is raised"
  },
  {
   "property": "C66",
   "status": "partial",
   "theorems": [
    "Verif.RTD.c66_kernel",
    "Verif.RTD.c66_runs",
    "Verif.RTD.c66_flag_partial",
    "Verif.RTD.c66_new_partial",
    "Verif.RTD.c66_stuck",
    "Verif.RTD.c66_without_false",
    "Verif.RTD.c66_states_false",
    "Verif.RTD.c66_flag_false"
   ],
   "note": "kernel and matrices of every successful calculation are those of new arrays; without corrections at construction, or after a change of states without corrections, every calculation raises AttributeError; ImGamma is not reset when states change"
  },
  {
   "property": "C67",
   "status": "partial",
   "theorems": [
    "Verif.RTD.c67_covered_partial",
    "Verif.RTD.c67_runs_partial",
    "Verif.RTD.c67_close_false",
    "Verif.RTD.c67_band_false"
   ],
   "note": "holds for leads of equal bandwidth whose temperatures are equal or not close; temperatures which np.isclose takes for equal but which differ by 1e-10 or more make every calculation with real amplitudes fail; only the bandwidth of the first lead is read"
  },
  {
   "property": "C68",
   "status": "proved",
   "theorems": [
    "Verif.c68_pauli",
    "Verif.c68_lindblad",
    "Verif.c68_1vN",
    "Verif.c68_redfield",
    "Verif.RTD.c68_rtd_kernel",
    "Verif.RTD.c68_rtd_current",
    "Verif.RTD.Fun.shift"
   ],
   "note": "all views with labels; for RTD the integrals are those of specfunc.py (Fun.shift), with digamma and the Ozaki poles as parameters"
  },
  {
   "property": "C69",
   "status": "proved",
   "theorems": [
    "Verif.c69_pauli",
    "Verif.RTD.c69_rtd",
    "Verif.c69_eigh"
   ],
   "note": "equality of the computations, errors included; c69_eigh goes from the parameters of dot and leads to the results, for two routines in place of numpy.linalg.eigh and phases of the leads"
  },
  {
   "property": "C70",
   "status": "proved",
   "theorems": [
    "Verif.c70_1vN",
    "Verif.c70_redfield",
    "Verif.c70_lindblad",
    "Verif.c70_eigh",
    "Verif.c70_pauli_false"
   ],
   "note": "for the approaches with coherences; c70_eigh goes from the parameters of dot and leads to the results, for two routines in place of numpy.linalg.eigh and phases of the leads; c70_pauli_false shows that the Pauli approach, which drops the coherences, gives a current that depends on the basis"
  },
  {
   "property": "C71",
   "status": "partial",
   "theorems": [
    "Verif.c71_redfield",
    "Verif.c71_lindblad",
    "Verif.c71_pauli",
    "Verif.c71_1vN_partial",
    "Verif.c71_1vN_false",
    "Verif.PhBaths.noise_nonneg",
    "Verif.PhBaths.lamb_two"
   ],
   "note": "Redfield, Lindblad and Pauli as stated; 1vN: populations and coherences between states of equal energy, negation proved for states of different energy"
  },
  {
   "property": "C72",
   "status": "proved",
   "theorems": [
    "Verif.RTD.c72_direct",
    "Verif.RTD.c72_exchange",
    "Verif.RTD.c72_ozaki"
   ],
   "note": "psi and polygamma are assumed to be the digamma function and its derivatives"
  },
  {
   "property": "C73",
   "status": "proved",
   "theorems": [
    "Verif.c73_lindblad",
    "Verif.c73_lindblad_elph",
    "Verif.closed_of_reach",
    "Verif.c73_1vN_false",
    "Verif.c73_redfield_false"
   ],
   "note": "Lindblad with and without phonons; for 1vN and Redfield the failure is proved"
  },
  {
   "property": "C74",
   "status": "proved",
   "theorems": [
    "Verif.c74_labels",
    "Verif.c74_total",
    "Verif.c74_incomplete_false"
   ],
   "note": "StateIndexingDM, the class used by all approaches that accept 'ssq'; lists with incomplete multiplets are accepted by the code and give wrong labels (c74_incomplete_false)"
  },
  {
   "property": "C75",
   "status": "proved",
   "theorems": [
    "Verif.c75_1vN",
    "Verif.c75_redfield",
    "Verif.c75_lindblad",
    "Verif.c75_objects"
   ],
   "note": "spin symmetry of the tables of energies and tunnelling amplitudes is a hypothesis (SpinSymm); Pauli (class StateIndexingPauli) not covered"
  },
  {
   "property": "C76",
   "status": "proved",
   "theorems": [
    "Verif.c76_basis",
    "Verif.c76_dot",
    "Verif.c76_spin"
   ],
   "note": "eigh is a parameter with a contract (EighReal); n even; Hermiticity and spin conservation are hypotheses of c76_dot and proved for c76_spin"
  },
  {
   "property": "C77",
   "status": "proved",
   "theorems": [
    "Verif.c77_tba",
    "Verif.c77_drops",
    "Verif.c77_vbbp"
   ],
   "note": ""
  },
  {
   "property": "C78",
   "status": "proved",
   "theorems": [
    "Verif.c78_spin",
    "Verif.c78_conserving"
   ],
   "note": "entries given twice are excluded (SpinInput)"
  },
  {
   "property": "C79",
   "status": "proved",
   "theorems": [
    "Verif.c79_tleads",
    "Verif.c79_symm",
    "Verif.c79_spin",
    "Verif.c79_reduced"
   ],
   "note": "eigh is a parameter with a contract (EighReal); n even; that mulst, tlst, dlst are equal for both spins (SameLeads) is a hypothesis"
  },
  {
   "property": "C80",
   "status": "proved",
   "theorems": [
    "Verif.c80_init",
    "Verif.c80_step",
    "Verif.c80_history",
    "Verif.c80_spin",
    "Verif.c80_spin_false",
    "Verif.c80_baths"
   ],
   "note": "for arguments that fit the number of leads; c80_spin_false: a list with the values of all leads is accepted with symmetry='spin' and then the spins differ"
  },
  {
   "property": "C81",
   "status": "proved",
   "theorems": [
    "Verif.c81_1vN",
    "Verif.c81_redfield",
    "Verif.c81_lindblad",
    "Verif.c81_indexing"
   ],
   "note": "eigh is a parameter with a contract (EighReal for 'ssq', EighOk for 'charge'); n even; that mulst, tlst, dlst are equal for both spins (SameLeads) is a hypothesis, see C80; all states are considered"
  },
  {
   "property": "C82",
   "status": "proved",
   "theorems": [
    "Verif.c82_integrals",
    "Verif.c82_hole",
    "Verif.c82_wide",
    "Verif.c82_imaginary"
   ],
   "note": "quad is a parameter with a contract (QuadOk: it yields principal values where they exist; quad_exists shows that such a routine exists); the digamma function is a parameter, its real part on the line 1/2+ix is assumed even in c82_hole; real numbers instead of floating point"
  },
  {
   "property": "C83",
   "status": "proved",
   "theorems": [
    "Verif.RTD.c83_conj",
    "Verif.RTD.c83_corrections",
    "Verif.RTD.c83_degenerate"
   ],
   "note": "all coherences between states of equal charge are included; real numbers instead of floating point"
  },
  {
   "property": "C84",
   "status": "proved",
   "theorems": [
    "Verif.RTD.c84_populations",
    "Verif.RTD.c84_coherences",
    "Verif.RTD.c84_elimination",
    "Verif.RTD.c84_follow"
   ],
   "note": "itype = 1, |D-| = |D+|, arguments of the Fermi function at most 709.77 in size, all coherences included; real numbers instead of floating point"
  },
  {
   "property": "C85",
   "status": "proved",
   "theorems": [
    "Verif.c85_pauli",
    "Verif.c85_lindblad",
    "Verif.c85_redfield",
    "Verif.c85_1vN",
    "Verif.c85_constant"
   ],
   "note": "within the cutoffs of the Fermi function (|x| <= 709.77); the quadrature and the digamma function are parameters, of which only what is stated is assumed"
  },
  {
   "property": "C86",
   "status": "proved",
   "theorems": [
    "Verif.c86_hilbert",
    "Verif.c86_phi1k",
    "Verif.c86_fk",
    "Verif.c86_distribution"
   ],
   "note": "numpy.fft.fft and ifft are taken to be the sums that define them; real numbers instead of floating point; a kernel set by hand to something else with the right length is used as it is"
  },
  {
   "property": "C87",
   "status": "proved",
   "theorems": [
    "Verif.c87_ozaki",
    "Verif.c87_error",
    "Verif.c87_between",
    "Verif.c87_fermi",
    "Verif.c87_bw"
   ],
   "note": "scipy.linalg.eigh_tridiagonal is taken to give orthonormal eigenvectors exactly; real numbers instead of floating point. For an odd size the code drops the pole at infinity; it is only called with even sizes"
  },
  {
   "property": "C88",
   "status": "proved",
   "theorems": [
    "Verif.c88_polygamma",
    "Verif.c88_orders",
    "Verif.c88_negative_false"
   ],
   "note": "real numbers instead of floating point; the decimal constants are those of the code; the result for negative real parts is disproved by a witness"
  },
  {
   "property": "C89",
   "status": "partial",
   "theorems": [
    "Verif.VN2.c89_successive_partial",
    "Verif.VN2.c89_code",
    "Verif.VN2.c89_false"
   ],
   "note": "for density matrices that are not real the adjoint in the nonlocal term is built from the conjugate density matrix; c89_code says what is computed for all of them. numpy.linalg.inv is taken to return inverses if it returns; numpy.fft as in C86; real numbers instead of floating point"
  },
  {
   "property": "C90",
   "status": "proved",
   "theorems": [
    "Verif.VN2.c90_landauer",
    "Verif.VN2.c90_success"
   ],
   "note": "provided that the linear equations of the last iteration have one solution, which the solver returned; numpy.linalg.inv is taken to find inverses where they exist; real numbers instead of floating point"
  },
  {
   "property": "C91",
   "status": "proved",
   "theorems": [
    "Verif.c91_pauli",
    "Verif.c91_lindblad",
    "Verif.c91_1vN",
    "Verif.c91_redfield"
   ],
   "note": "for the four first order approaches, with the kernel in matrix form. Not for RTD, which compares energies and temperatures with 1e-10 whatever the unit (RTD.py:908, 1e-10 in integralD and integralX). Real numbers instead of floating point"
  },
  {
   "property": "C92",
   "status": "proved",
   "theorems": [
    "Verif.c92_pauli",
    "Verif.c92_lindblad",
    "Verif.c92_1vN",
    "Verif.c92_redfield"
   ],
   "note": "for the four first order approaches, with the kernel in matrix form. Real numbers instead of floating point"
  },
  {
   "property": "C93",
   "status": "proved",
   "theorems": [
    "Verif.c93_unique",
    "Verif.c93_solve",
    "Verif.c93_connected"
   ],
   "note": "the linear solver is a parameter, assumed to solve systems that have one solution. Real numbers instead of floating point"
  },
  {
   "property": "C94",
   "status": "proved",
   "theorems": [
    "Verif.c94_levels",
    "Verif.c94_solve"
   ],
   "note": "the energies and amplitudes in the eigenbasis are those of independent levels by hypothesis; the linear solver is a parameter, assumed to solve systems that have one solution. Real numbers instead of floating point"
  },
  {
   "property": "C95",
   "status": "proved",
   "theorems": [
    "Verif.c95_free"
   ],
   "note": "for 'charge' indexing without removed Fock states. Sets of orbitals with equal energies are excluded: there the Pauli equations depend on the eigenvectors. The eigenvalue routine and the linear solver are parameters, assumed to return eigenvectors of Hermitian matrices and the solution of systems that have one. Real numbers instead of floating point"
  },
  {
   "property": "C96",
   "status": "proved",
   "theorems": [
    "Verif.c96_pauli",
    "Verif.c96_lindblad",
    "Verif.c96_vn1",
    "Verif.c96_redfield",
    "Verif.c96_lost_update",
    "Verif.c96_removed_coherences_false",
    "Verif.c96_negative_row_false"
   ],
   "note": "outside of the quantifier it is false: after remove_coherences (the table of elements is overrun) and for a negative norm_row (wraparound is switched off), see the theorems ending in _false. For objects of class StateIndexingDM, with 'ssq' indexing for complete multiplets. Loads and stores are atomic and sequentially consistent; func_pauli and func_1vN of c_specfunc.pyx are taken to be those of specfunc.py, which C100 is about; the LAPACK wrappers are not modelled. Real numbers instead of floating point"
  },
  {
   "property": "C97",
   "status": "partial",
   "theorems": [
    "Verif.c97_pauli",
    "Verif.c97_vn1",
    "Verif.c97_redfield",
    "Verif.c97_lindblad_partial",
    "Verif.c97_lindblad_false"
   ],
   "note": "proved for Pauli, Redfield and 1vN; false for Lindblad, where c_lindblad.pyx:129 multiplies by the wrong jump amplitude: the kernel does not conserve probability (c97_lindblad_false). What holds for Lindblad is that the columns of the populations are those of the Python kernel, and that the amplitudes agree for the pairs that si_elph labels and are zero for the others. The parallel loop is that of C96; the special functions of c_specfunc_elph.pyx are those of specfunc_elph.py by C100. Real numbers instead of floating point"
  },
  {
   "property": "C98",
   "status": "proved",
   "theorems": [
    "Verif.CRTD.c98_kern",
    "Verif.CRTD.c98_current",
    "Verif.CRTD.c98_tolerance_false"
   ],
   "note": "within its quantifier; the thresholds of the two versions differ, c98_tolerance_false is a witness. A thread without a copy of Wdd would write outside of the arrays; the executions are those in which only threads with a copy take part. Array operations of numpy on memory views are taken as sums; phi, delta_phi, fermi_func and func_pauli of c_specfunc.pyx are taken to be those of specfunc.py (see C100), the numerical integrals are a parameter. Real numbers instead of floating point"
  },
  {
   "property": "C99",
   "status": "proved",
   "theorems": [
    "Verif.CVN2.c99_solve",
    "Verif.CVN2.c99_history"
   ],
   "note": "within its quantifier: in matrix-free mode both versions raise (c39_mfree, and the compiled handler has no set_dphi0_dt), and 'sz' and 'ssq' indexing are left out as in C39. Exceptions raised inside of the cdef void methods are taken to propagate, as they do with Cython 3; the handler is that of the present indexing object, which prepare_kern makes anew after a change of the states; the Fermi functions and Hilbert transforms are made by methods inherited from the Python class; the literal pi is the real number. Real numbers instead of floating point"
  },
  {
   "property": "C100",
   "status": "partial",
   "theorems": [
    "Verif.CSpec.c100_digamma",
    "Verif.CSpec.c100_polygamma",
    "Verif.CSpec.c100_polygamma_zero",
    "Verif.CSpec.c100_digamma_left",
    "Verif.CSpec.c100_digamma_left_false",
    "Verif.CSpec.c100_pauli",
    "Verif.CSpec.c100_1vN_partial",
    "Verif.CSpec.c100_1vN_false",
    "Verif.CSpec.c100_phi",
    "Verif.CSpec.c100_dEqualT",
    "Verif.CSpec.c100_xEqualT",
    "Verif.CSpec.c100_dOzaki",
    "Verif.CSpec.c100_xOzaki",
    "Verif.CSpec.c100_ozaki",
    "Verif.CSpec.c100_bw_partial",
    "Verif.CSpec.c100_bw_false",
    "Verif.CSpec.c100_rate",
    "Verif.CSpec.c100_1vN_elph"
   ],
   "note": "proved but for two cases in which it is false: for itype outside of 0..3 func_1vN reads variables that were never set where the Python one gives zeros (c100_1vN_false), and for narrow bands, where the quadratic equation of BW_Ozaki has no real root, the compiled version raises where the Python one gives one pole (c100_bw_false). The integrals are compared at the arguments integralD and integralX pass (one sign 1, equal bandwidths). How the error of digamma propagates through the quotients of the integrals is not bounded. Real numbers instead of floating point: no rounding, no overflow, division by zero gives zero"
  },
  {
   "property": "C101",
   "status": "partial",
   "theorems": [
    "Verif.CSolve.c101_solve_partial",
    "Verif.CSolve.c101_free_partial",
    "Verif.CSolve.c101_norm_row_free_false",
    "Verif.CSolve.c101_solmethod",
    "Verif.CSolve.c101_solmethod_false",
    "Verif.CSolve.c101_lsmr_false",
    "Verif.CSolve.c101_unknown_false",
    "Verif.CSolve.c101_norm_row_false",
    "Verif.CSolve.c101_kern_false"
   ],
   "note": "proved in matrix mode for solmethod solve and lsqr (or the default), in matrix-free mode for runs of the root finder with at least one evaluation, both for norm_row from 0 to the number of equations; false beyond: assigning solmethod before the first solve raises AttributeError in a compiled object (c101_solmethod_false), lsmr with symq=False makes it go outside of the array (c101_lsmr_false), an unknown method is replaced by LU decomposition (c101_unknown_false), a negative norm_row goes outside of the array (c101_norm_row_false, c101_norm_row_free_false), and kern is not restored (c101_kern_false). Assignments to mfreeq are left out. That the compiled methods generate the same kernel and currents is C96; that numpy uses the same LAPACK routines is assumed"
  },
  {
   "property": "C102",
   "status": "partial",
   "theorems": [
    "Verif.Funcp.c102_solve",
    "Verif.Funcp.c102_session",
    "Verif.Funcp.c102_suppress",
    "Verif.Funcp.c102_announced_partial",
    "Verif.Funcp.c102_silent_false"
   ],
   "note": "proved for failures that raise an exception; in matrix-free mode a root finder that gives up without raising sets success to False and nothing is printed (c102_silent_false). Of the messages the kind and the varying text are kept; what the libraries do is arbitrary"
  }
 ]
}