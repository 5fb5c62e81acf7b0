{
 "claims": [
  {
   "property": "C01",
   "status": "proved",
   "theorems": [
    "Verif.Random.boundedUint_lt",
    "Verif.Random.boundedUint_iff",
    "Verif.Random.boundedUint_unbiased",
    "Verif.Random.boundedUint_rejects_few",
    "Verif.Random.boundedUint_terminates",
    "Verif.Random.boundedUint_count",
    "Verif.Random.boundedUint_stuck"
   ],
   "note": "Termination holds for every state with a non-zero word (boundedUint_terminates, from the period theorem C68); from the zero state the loop never ends for bound 3 (boundedUint_stuck), and seeding never makes the zero state (C04)."
  },
  {
   "property": "C02",
   "status": "proved",
   "theorems": [
    "Verif.Random.shuffle_isPerm",
    "Verif.Random.shuffle_indep",
    "Verif.Random.shuffle_bijective",
    "Verif.Random.shuffle_eq_draws",
    "Verif.Random.shuffle_terminates"
   ],
   "note": "shuffle_terminates: the shuffle returns for every n below 2^31 and every state with a non-zero word."
  },
  {
   "property": "C03",
   "status": "proved",
   "theorems": [
    "Verif.Random.uniform_mem_Ioc",
    "Verif.Random.rnd_literal",
    "Verif.Random.normal_defined",
    "Verif.Random.normal_value"
   ],
   "note": "Rounding is a parameter; IEEE round to nearest satisfies its hypotheses."
  },
  {
   "property": "C04",
   "status": "proved",
   "theorems": [
    "Verif.Random.getUint_injective",
    "Verif.Random.never_all_zero",
    "Verif.Random.zero_state_stuck",
    "Verif.Random.seed_itime",
    "Verif.Random.seedInit_nonZero",
    "Verif.Random.stateAt_nonZero"
   ],
   "note": ""
  },
  {
   "property": "C05",
   "status": "partial",
   "theorems": [
    "Verif.Files.restored_stream_iff",
    "Verif.Files.restored_stream_partial",
    "Verif.Files.not_restored_stream",
    "Verif.Files.not_restored",
    "Verif.Files.not_restored_reachable"
   ],
   "note": "The claim is false: SaveCheckpoint rotates the state words the wrong way (checkpoint.c:75). Exact characterisation: the stream survives iff the sixteen words are invariant under rotation by 2p; it always survives for p = 0 and p = 8, and for every other p some reachable state loses it."
  },
  {
   "property": "C06",
   "status": "proved",
   "theorems": [
    "Verif.HashTable.hashTable_refines_map"
   ],
   "note": ""
  },
  {
   "property": "C07",
   "status": "proved",
   "theorems": [
    "Verif.HashTable.hashTable_count_delete",
    "Verif.HashTable.hashTable_ownership"
   ],
   "note": ""
  },
  {
   "property": "C08",
   "status": "partial",
   "theorems": [
    "Verif.Params.readTable_spec_partial",
    "Verif.Params.readTable_long_comment",
    "Verif.Params.readTable_overflow"
   ],
   "note": "True for lines of at most 1022 characters and at most 1024 values per name; refuted beyond both limits."
  },
  {
   "property": "C09",
   "status": "proved",
   "theorems": [
    "Verif.Params.parse_spec",
    "Verif.Params.interpret_spec"
   ],
   "note": "Same file size limits as C08."
  },
  {
   "property": "C10",
   "status": "proved",
   "theorems": [
    "Verif.Params.readHoppings_accepts",
    "Verif.Params.readHoppings_last_wins",
    "Verif.Params.readHoppings_in_bounds"
   ],
   "note": ""
  },
  {
   "property": "C11",
   "status": "proved",
   "theorems": [
    "Verif.Params.validate_iff",
    "Verif.Main.program_rejects",
    "Verif.Main.program_admissible"
   ],
   "note": ""
  },
  {
   "property": "C12",
   "status": "partial",
   "theorems": [
    "Verif.Main.setup_defined_partial",
    "Verif.Main.process_defined_partial",
    "Verif.Main.fresh_defined_partial",
    "Verif.Main.process_defined_ph_partial",
    "Verif.Main.fresh_defined_ph_partial",
    "Verif.Main.exP_runs",
    "Verif.Main.exPph_runs",
    "Verif.Main.not_validated_sqrt",
    "Verif.Main.not_validated_shift",
    "Verif.Main.not_validated_division",
    "Verif.Main.not_validated_block"
   ],
   "note": "False as stated, with four witnesses (negative U, negative pbc_shift, neqlt = 0 with phonons, one block with unequal time measurements). With these four as guards every process ends without an undefined operation, with and without phonons, provided the initial weight (with phonons: every weight) is not zero. The generator needs no hypothesis for fresh runs: validated parameters give a non-zero state, and retry loops end from there (C68). exP_runs and exPph_runs have no hypothesis on weights. Without phonons the condition on the weights holds for all but finitely many dt (C104)."
  },
  {
   "property": "C13",
   "status": "proved",
   "theorems": [
    "Verif.Lattice.sumMap_group",
    "Verif.Lattice.sumMap_fixed",
    "Verif.Lattice.sumMap_is_addition"
   ],
   "note": ""
  },
  {
   "property": "C14",
   "status": "partial",
   "theorems": [
    "Verif.Lattice.nnMaps_inverse",
    "Verif.Lattice.xMaps_geometric",
    "Verif.Lattice.yMaps_geometric_partial",
    "Verif.Lattice.yMaps_not_geometric"
   ],
   "note": "y neighbours ignore pbc_shift: refuted for pbc_shift not divisible by Nx, proved otherwise."
  },
  {
   "property": "C15",
   "status": "proved",
   "theorems": [
    "Verif.Kinetic.hopping_spec",
    "Verif.Kinetic.hopping_negative_shift"
   ],
   "note": "For pbc_shift >= 0; a negative shift leaves the matrix (hopping_negative_shift)."
  },
  {
   "property": "C16",
   "status": "proved",
   "theorems": [
    "Verif.Kinetic.hopping_translation_invariant"
   ],
   "note": ""
  },
  {
   "property": "C17",
   "status": "proved",
   "theorems": [
    "Verif.Kinetic.kinetic_exponentials",
    "Verif.Kinetic.eigensolver_exists"
   ],
   "note": "For every eigensolver satisfying its contract; existence shown."
  },
  {
   "property": "C18",
   "status": "partial",
   "theorems": [
    "Verif.Kinetic.hopping_contributes_partial",
    "Verif.Kinetic.bond_ends_differ",
    "Verif.Kinetic.selfBond_dropped"
   ],
   "note": "True for bonds between different sites (all bonds if Nx, Ny >= 2); refuted for width 1."
  },
  {
   "property": "C19",
   "status": "proved",
   "theorems": [
    "Verif.Stratonovich.hs_decoupling"
   ],
   "note": ""
  },
  {
   "property": "C20",
   "status": "proved",
   "theorems": [
    "Verif.Stratonovich.fill_consistent"
   ],
   "note": ""
  },
  {
   "property": "C21",
   "status": "proved",
   "theorems": [
    "Verif.TimeFlow.timeStepMatrix_inverse",
    "Verif.TimeFlow.phononTimeStepMatrix_inverse",
    "Verif.TimeFlow.fill_reciprocal"
   ],
   "note": "B = diag(exp V) exp(-dt K) and both products with the stored inverse are 1, for any exponentials with expK*invExpK = 1 (C17) and reciprocal tables (fill_reciprocal)."
  },
  {
   "property": "C22",
   "status": "proved",
   "theorems": [
    "Verif.TimeFlow.matrixProductSequence_spec"
   ],
   "note": "Any number of factors, any initial content of both buffers."
  },
  {
   "property": "C23",
   "status": "proved",
   "theorems": [
    "Verif.MonteCarlo.caches_fresh",
    "Verif.MonteCarlo.ph_caches_fresh",
    "Verif.MonteCarlo.SpinInv.cacheExact",
    "Verif.MonteCarlo.simulate_inv"
   ],
   "note": "All sweeps with and without phonons, any number of iterations and any random source; exact real arithmetic."
  },
  {
   "property": "C24",
   "status": "proved",
   "theorems": [
    "Verif.TimeFlow.timeFlowMap_spec",
    "Verif.TimeFlow.timeFlowMap_cyclic",
    "Verif.Lapack.lapack_exists"
   ],
   "note": "For every result satisfying the QR contracts (packed reflectors); existence of such results is proved. Rank-deficient matrices included."
  },
  {
   "property": "C25",
   "status": "proved",
   "theorems": [
    "Verif.TimeFlow.pivotOrder_spec"
   ],
   "note": ""
  },
  {
   "property": "C26",
   "status": "proved",
   "theorems": [
    "Verif.Greens.greenConstruct_spec",
    "Verif.Greens.greenConstruct_cyclic",
    "Verif.Lapack.lapack_exists"
   ],
   "note": "Also: a singular 1 + A is hit as an exact zero pivot."
  },
  {
   "property": "C27",
   "status": "proved",
   "theorems": [
    "Verif.Greens.greenConstruct_spec",
    "Verif.Greens.greenConstruct_cyclic",
    "Verif.Greens.det_record_unique"
   ],
   "note": ""
  },
  {
   "property": "C28",
   "status": "proved",
   "theorems": [
    "Verif.Greens.shermanMorrison_spec",
    "Verif.Greens.det_ratio"
   ],
   "note": ""
  },
  {
   "property": "C29",
   "status": "proved",
   "theorems": [
    "Verif.Greens.timeSliceWrap_spec"
   ],
   "note": ""
  },
  {
   "property": "C30",
   "status": "proved",
   "theorems": [
    "Verif.MonteCarlo.hsTimeSlice_inv",
    "Verif.MonteCarlo.hsTimeSlice_defined",
    "Verif.MonteCarlo.sweep_inv",
    "Verif.MonteCarlo.dqmcIteration_inv",
    "Verif.MonteCarlo.sweeps_inv",
    "Verif.MonteCarlo.dqmcIteration_defined",
    "Verif.MonteCarlo.Inv.recompute_eq",
    "Verif.MonteCarlo.exact_within_slice",
    "Verif.MonteCarlo.phTimeSlice_inv",
    "Verif.MonteCarlo.phIteration_inv",
    "Verif.MonteCarlo.phIterations_inv",
    "Verif.MonteCarlo.xorshift_lawful",
    "Verif.MonteCarlo.startState_inv",
    "Verif.MonteCarlo.startState_phInv",
    "Verif.MonteCarlo.simulate_inv",
    "Verif.MonteCarlo.simulate_defined",
    "Verif.MonteCarlo.exSimulation"
   ],
   "note": "Exact real arithmetic; LAPACK routines obey their contracts (shown satisfiable by lapack_exists)."
  },
  {
   "property": "C31",
   "status": "proved",
   "theorems": [
    "Verif.MonteCarlo.det_shift",
    "Verif.MonteCarlo.weight_shift",
    "Verif.MonteCarlo.Exact.weight_pos",
    "Verif.MonteCarlo.Exact.weight_record",
    "Verif.MonteCarlo.accept_probability",
    "Verif.MonteCarlo.balance",
    "Verif.MonteCarlo.flipField_flipField",
    "Verif.MonteCarlo.hs_detailed_balance"
   ],
   "note": "The uniform number is treated as uniformly distributed on (0,1] for the probability statement."
  },
  {
   "property": "C32",
   "status": "proved",
   "theorems": [
    "Verif.MonteCarlo.hsSite_field",
    "Verif.MonteCarlo.hsSite_other",
    "Verif.MonteCarlo.hsTimeSlice_field"
   ],
   "note": "The entries are of type Fin 2 in the model; loading a checkpoint with other bytes is treated under the checkpoint properties."
  },
  {
   "property": "C33",
   "status": "proved",
   "theorems": [
    "Verif.MonteCarlo.no_interaction",
    "Verif.MonteCarlo.skip_harmless"
   ],
   "note": ""
  },
  {
   "property": "C34",
   "status": "partial",
   "theorems": [
    "Verif.MonteCarlo.localEnergyChange_spec",
    "Verif.MonteCarlo.localEnergyChange_one",
    "Verif.MonteCarlo.not_localEnergyChange_one",
    "Verif.MonteCarlo.local_detailed_balance_partial",
    "Verif.MonteCarlo.proposal_symmetric"
   ],
   "note": "True for L >= 2. For L = 1, which validation accepts, the energy change of the code is wrong: not_localEnergyChange_one."
  },
  {
   "property": "C35",
   "status": "proved",
   "theorems": [
    "Verif.MonteCarlo.decide_spec",
    "Verif.MonteCarlo.blockUpdate_spec",
    "Verif.MonteCarlo.flipUpdate_spec",
    "Verif.MonteCarlo.flip_involution",
    "Verif.MonteCarlo.block_reverse",
    "Verif.MonteCarlo.path_detailed_balance",
    "Verif.MonteCarlo.blockUpdate_inv",
    "Verif.MonteCarlo.flipUpdate_inv"
   ],
   "note": ""
  },
  {
   "property": "C36",
   "status": "proved",
   "theorems": [
    "Verif.MonteCarlo.setX_coherent",
    "Verif.MonteCarlo.phTimeSlice_inv",
    "Verif.MonteCarlo.phIteration_inv",
    "Verif.MonteCarlo.phIterations_inv",
    "Verif.MonteCarlo.startState_phInv",
    "Verif.MonteCarlo.simulate_inv",
    "Verif.MonteCarlo.exPhononStart"
   ],
   "note": "PhInv contains the coherence of expX with X."
  },
  {
   "property": "C37",
   "status": "proved",
   "theorems": [
    "Verif.MonteCarlo.localSite_counts",
    "Verif.MonteCarlo.localFold_counts",
    "Verif.MonteCarlo.phTimeSlice_counts",
    "Verif.MonteCarlo.decide_counts",
    "Verif.MonteCarlo.blockUpdate_counts",
    "Verif.MonteCarlo.flipUpdate_counts",
    "Verif.MonteCarlo.phIteration_counts",
    "Verif.MonteCarlo.phIteration_attempts"
   ],
   "note": "Counters are unbounded naturals here; int overflow is C107."
  },
  {
   "property": "C38",
   "status": "proved",
   "theorems": [
    "Verif.MonteCarlo.equal_time_samples",
    "Verif.MonteCarlo.no_samples_before",
    "Verif.MonteCarlo.simulate_count",
    "Verif.MonteCarlo.sessions_count",
    "Verif.MonteCarlo.totalSamples_eq"
   ],
   "note": "For every count in the measurement data that grows by one with each call of AccumulateMeasurement."
  },
  {
   "property": "C39",
   "status": "proved",
   "theorems": [
    "Verif.MonteCarlo.unequal_time_samples",
    "Verif.MonteCarlo.sessions_count",
    "Verif.MonteCarlo.totalSamples_uneq",
    "Verif.MonteCarlo.totalSamples_split"
   ],
   "note": "Any number of stops; the measurement data are carried over between the runs."
  },
  {
   "property": "C40",
   "status": "proved",
   "theorems": [
    "Verif.MonteCarlo.phonon_buffer",
    "Verif.Measurement.accumulatePh_estimates",
    "Verif.Measurement.accumulatePh_overflow"
   ],
   "note": "phonon_buffer: a program that checks the capacity before every phonon sample behaves identically; the other two: a call is in range exactly if fewer than max_nsampl samples were taken."
  },
  {
   "property": "C41",
   "status": "proved",
   "theorems": [
    "Verif.Measurement.accumulateEq_estimates",
    "Verif.Measurement.accumulateEq_estimates_untwisted",
    "Verif.Measurement.Estimates.unique"
   ],
   "note": "For pbc_shift >= 0. Wick contraction is the specification of the expectation values. For pbc_shift not a multiple of Nx the neighbours of the pair operators are those of the unshifted lattice (C14)."
  },
  {
   "property": "C42",
   "status": "proved",
   "theorems": [
    "Verif.Measurement.sumRules_always",
    "Verif.Measurement.Estimates.sumRules"
   ],
   "note": "Any history of accumulations and normalisations."
  },
  {
   "property": "C43",
   "status": "proved",
   "theorems": [
    "Verif.Measurement.normalize_mean",
    "Verif.Measurement.accumulateAll_perm",
    "Verif.Measurement.accumulateAll_append"
   ],
   "note": ""
  },
  {
   "property": "C44",
   "status": "proved",
   "theorems": [
    "Verif.GreensUneq.compute_spec",
    "Verif.GreensUneq.toCur_eq",
    "Verif.GreensUneq.compute_toCur"
   ],
   "note": "All N, L, prodBlen with at least two blocks and every time; previous contents of the arrays are arbitrary. The arrays as read by the measurement equal the exact Green's functions."
  },
  {
   "property": "C45",
   "status": "proved",
   "theorems": [
    "Verif.BlockCyclic.blockCyclicInverse_spec",
    "Verif.BlockCyclic.blockCyclicInverse_one"
   ],
   "note": "All block sizes, all p >= 2, every QR routine meeting its contract; buffers with checked addresses, so no access leaves the matrix. p = 1 is shown to leave the array."
  },
  {
   "property": "C46",
   "status": "proved",
   "theorems": [
    "Verif.Measurement.uneq_zero_eq",
    "Verif.Measurement.unequalTime_zero"
   ],
   "note": ""
  },
  {
   "property": "C47",
   "status": "partial",
   "theorems": [
    "Verif.Main.resume_partial",
    "Verif.Main.resume_chain_partial",
    "Verif.Main.resume_small_partial",
    "Verif.Main.resume_differs"
   ],
   "note": "False as stated: resume_differs gives a run of two iterations that ends with another state of the generator when it is stopped after the first. Without phonons, and if every stop finds the generator at position 0 or 8 of its ring (the only positions the checkpoint can represent), any chain of stops and resumes leaves the same files and exit code as an uninterrupted run. For at most two sites and 8 | L*N the positions are always such, so resume_small_partial has no hypothesis on them."
  },
  {
   "property": "C48",
   "status": "partial",
   "theorems": [
    "Verif.Main.extension_exact_partial",
    "Verif.Main.extension_unfinished_partial",
    "Verif.Main.extension_finished_partial",
    "Verif.Main.extension_wrong"
   ],
   "note": "False as stated: the averages of the finished run are taken for sums (extension_wrong: the average sign of a run without any sign problem becomes (1 + (m - n)) / m). extension_finished_partial gives the exact wrong value. An unfinished run can be extended correctly (extension_unfinished_partial), with the hypotheses of C47."
  },
  {
   "property": "C49",
   "status": "partial",
   "theorems": [
    "Verif.Files.crash_outcomes_partial",
    "Verif.Files.crash_no_old_partial",
    "Verif.Files.not_crash_safe"
   ],
   "note": "False as stated: overwriting an older checkpoint can be interrupted between two files. Proved: complete list of outcomes of every crash point, and safety when there was no older checkpoint."
  },
  {
   "property": "C50",
   "status": "partial",
   "theorems": [
    "Verif.Main.crash_loses_samples",
    "Verif.Files.crash_no_old_partial",
    "Verif.Main.crash_all"
   ],
   "note": "False as stated: crash_loses_samples is a crash after which the next run ends with exit code 0, all iterations done and n - k samples. True when the crash comes before the checkpoint is complete and there was none before (crash_no_old_partial)."
  },
  {
   "property": "C51",
   "status": "proved",
   "theorems": [
    "Verif.Files.readData_writeData",
    "Verif.Files.readData_append",
    "Verif.Files.readData_cases",
    "Verif.Files.writeData_other",
    "Verif.Files.roundtrip_values"
   ],
   "note": "Byte level model of util.c; appended files keep what was there."
  },
  {
   "property": "C52",
   "status": "partial",
   "theorems": [
    "Verif.Files.loadCheckpoint_iff",
    "Verif.Files.loadCheckpoint_status",
    "Verif.Files.load_save",
    "Verif.Files.load_size_partial",
    "Verif.Files.load_entries_partial",
    "Verif.Files.not_load_valid"
   ],
   "note": "False as stated: the entries of the field are not checked. Proved: exact condition for success, status codes, round trip, rejection of every other size, validity for files written by SaveCheckpoint from a valid field."
  },
  {
   "property": "C53",
   "status": "partial",
   "theorems": [
    "Verif.Files.loadEq_saveEq_partial",
    "Verif.Files.loadUneq_saveUneq_partial",
    "Verif.Files.not_missing_noticed",
    "Verif.Files.not_truncation_noticed"
   ],
   "note": "Round trip of all accumulators, sign and sample count proved; that damage is noticed is false: the results of ReadData are ignored."
  },
  {
   "property": "C54",
   "status": "proved",
   "theorems": [
    "Verif.Main.stop_between",
    "Verif.Main.stop_first",
    "Verif.Main.process_go"
   ],
   "note": "Every stop request seen before an iteration ends the run there, with the number of completed iterations in the checkpoint and exit code 1. (A signal after the last test also gives exit code 1 although the run is complete; this is part of the model as RunInput.late.)"
  },
  {
   "property": "C55",
   "status": "partial",
   "theorems": [
    "Verif.Main.results_eq",
    "Verif.Main.results_uneq",
    "Verif.Main.results_ph",
    "Verif.Main.complete_iff",
    "Verif.Main.complete_untouched",
    "Verif.Main.beyond_end_raw"
   ],
   "note": "False as stated when the checkpoint has more iterations than are asked for: nothing is run, the exit code is 0 and the sums are not divided (beyond_end_raw). Proved otherwise; a complete checkpoint is left untouched."
  },
  {
   "property": "C56",
   "status": "partial",
   "theorems": [
    "Verif.MonteCarlo.progress_partial",
    "Verif.MonteCarlo.not_progress"
   ],
   "note": "True for nsampl >= 1; false for nsampl = 0: a finished run reports MEASURE."
  },
  {
   "property": "C57",
   "status": "partial",
   "theorems": [
    "Verif.Profiler.entry_of_calls",
    "Verif.Profiler.entry_independent",
    "Verif.Profiler.keyOf_inj",
    "Verif.Profiler.profiler_times_partial",
    "Verif.Profiler.lengths_toNat",
    "Verif.Profiler.run_defined",
    "Verif.Profiler.run_calls",
    "Verif.Profiler.report_spec",
    "Verif.Profiler.report_names",
    "Verif.Profiler.nested_total",
    "Verif.Profiler.nested_wrong",
    "Verif.Profiler.names_collide"
   ],
   "note": "False as stated: nested blocks of the same name add the absolute clock (nested_wrong), and a name with a dash may be that of another thread (names_collide). Proved for blocks of a name that are not nested in each other, any other names and threads, any interleaving."
  },
  {
   "property": "C58",
   "status": "proved",
   "theorems": [
    "Verif.Parallel.parallel_regions",
    "Verif.Parallel.sections_independent",
    "Verif.Parallel.sections_commute",
    "Verif.Parallel.regions_ok",
    "Verif.Parallel.wrap_sections",
    "Verif.Parallel.update_sections",
    "Verif.Parallel.updatePh_sections",
    "Verif.Parallel.recompute_sections",
    "Verif.Parallel.shermanMorrison_sections",
    "Verif.Parallel.initNew_sections",
    "Verif.Parallel.constructNew_sections",
    "Verif.Parallel.uneq_sections",
    "Verif.Parallel.lost_increment"
   ],
   "note": "For every parallel region of the simulation, threads which execute the sections in steps of any size end, for every interleaving, after the same number of steps with the result of executing the sections one after the other; the sections are those of the sequential model (\u2026_sections). The table of the profiler, which both sections change inside a critical region, is excluded from the result. lost_increment shows that the absence of conflicts is needed."
  },
  {
   "property": "C59",
   "status": "partial",
   "theorems": [
    "Verif.Main.phonons_forgotten",
    "Verif.Main.phonon_data_start",
    "Verif.Main.phonon_samples_last",
    "Verif.Main.phonon_samples_lost"
   ],
   "note": "False as stated. phonons_forgotten: the next process starts in the same way whatever phonon field, sums and counters this one ended with. phonon_samples_last: the number of phonon samples in the results counts the last process only; phonon_samples_lost is a witness with 1 instead of 2 samples."
  },
  {
   "property": "C60",
   "status": "partial",
   "theorems": [
    "Verif.Measurement.phonon_energy_partial",
    "Verif.Measurement.kinetic_energy_wrong",
    "Verif.Measurement.phonon_energy_false"
   ],
   "note": "False for the kinetic energy with more than one orbital: KE[0] gets the constant of all orbitals. True for the potential energy, for one orbital and for the sum over orbitals."
  },
  {
   "property": "C61",
   "status": "proved",
   "theorems": [
    "Verif.Measurement.accumulateEq_estimates",
    "Verif.Measurement.accumulateAll_defined",
    "Verif.Measurement.accumulateEq_negative_shift"
   ],
   "note": "The result is some, i.e. no access out of range. The last theorem shows that pbc_shift >= 0 is needed."
  },
  {
   "property": "C62",
   "status": "proved",
   "theorems": [
    "Verif.Fock.occupation_numbers"
   ],
   "note": "The weights are the diagonal matrix elements of the second quantised propagator (gamma_diag), so this is the occupation number distribution on the Fock space."
  },
  {
   "property": "C63",
   "status": "proved",
   "theorems": [
    "Verif.MonteCarlo.sign_without_interaction",
    "Verif.MonteCarlo.Exact.sign_eq_one_iff",
    "Verif.MonteCarlo.no_interaction"
   ],
   "note": ""
  },
  {
   "property": "C64",
   "status": "proved",
   "theorems": [
    "Verif.MonteCarlo.sign_bipartite",
    "Verif.MonteCarlo.bipartite_particleHole",
    "Verif.MonteCarlo.sign_half_filling",
    "Verif.MonteCarlo.det_product_half_filling",
    "Verif.MonteCarlo.exSimulation"
   ],
   "note": "Exact real arithmetic."
  },
  {
   "property": "C65",
   "status": "proved",
   "theorems": [
    "Verif.Measurement.accumulateUneq_estimates",
    "Verif.Measurement.b1g_chain_wrong"
   ],
   "note": "b1g_chain_wrong: the exception for chains is needed."
  },
  {
   "property": "C66",
   "status": "proved",
   "theorems": [
    "Verif.Measurement.accumulatePh_estimates",
    "Verif.Measurement.accumulatePh_xAvgSq",
    "Verif.Measurement.accumulatePh_other_slots"
   ],
   "note": "accumulatePh_xAvgSq: X_avg_sq is the exception, it is accumulated without the sign."
  },
  {
   "property": "C67",
   "status": "partial",
   "theorems": [
    "Verif.Files.not_writeData_success",
    "Verif.Files.writeData_success_partial"
   ],
   "note": "False because the result of fclose is ignored (util.c); true if the final flush succeeds."
  },
  {
   "property": "C68",
   "status": "proved",
   "theorems": [
    "Verif.Random.outputAt_period",
    "Verif.Random.outputAt_minimal",
    "Verif.Random.tuple_unique",
    "Verif.Random.count_output"
   ],
   "note": "The order of the 1024-dimensional linear step is certified inside the kernel: a characteristic polynomial, a power certificate, Bezout cofactors for the 16 prime factors of 2^1024-1 and Pratt certificates for these primes."
  },
  {
   "property": "C69",
   "status": "proved",
   "theorems": [
    "Verif.Fock.equalTime_is_trace",
    "Verif.Fock.unequalTime_is_trace"
   ],
   "note": "Operators are Jordan-Wigner matrices (cre, ann); the propagators are gamma of products of time step matrices, and exp_oneBody shows that these are exponentials of one-body operators."
  },
  {
   "property": "C70",
   "status": "proved",
   "theorems": [
    "Verif.Fock.estimators_are_traces",
    "Verif.Fock.wick_two",
    "Verif.Fock.four_trace",
    "Verif.Fock.pair_trace",
    "Verif.Fock.exp_oneBody",
    "Verif.Fock.trace_gamma"
   ],
   "note": "Together with C41, C46 and C65, where the accumulated numbers are shown to be these contractions."
  },
  {
   "property": "C71",
   "status": "proved",
   "theorems": [
    "Verif.Fock.partition_function",
    "Verif.Fock.average_sign_pos",
    "Verif.Fock.program_partition_function",
    "Verif.Fock.exp_repOp"
   ],
   "note": "Without phonons the average sign is positive; with a time dependent potential only the partition function formula is claimed."
  },
  {
   "property": "C72",
   "status": "proved",
   "theorems": [
    "Verif.Fock.thermal_averages",
    "Verif.Fock.thermal_averages_eq",
    "Verif.Fock.program_thermal_averages",
    "Verif.Fock.program_thermal_averages_uneq"
   ],
   "note": "Hypothesis: no field has weight zero. A field with weight zero is never visited, but may contribute to the trace."
  },
  {
   "property": "C73",
   "status": "proved",
   "theorems": [
    "Verif.MonteCarlo.simulate_stationary",
    "Verif.MonteCarlo.idealRng_ideal",
    "Verif.MonteCarlo.program_expected"
   ],
   "note": "Ideal random numbers replace the xorshift generator; Rng.Ideal is satisfied by idealRng (independent draws on an infinite product space). Stationarity only: no claim on convergence from other initial fields. Runs without phonons."
  },
  {
   "property": "C74",
   "status": "proved",
   "theorems": [
    "Verif.MonteCarlo.simulate_expected",
    "Verif.MonteCarlo.expected_equal_times",
    "Verif.MonteCarlo.expected_unequal_times",
    "Verif.MonteCarlo.program_expected"
   ],
   "note": "Expectation over ideal random numbers with the stationary initial distribution. The ff entries are excluded: they subtract a product of means per sample, which is not an operator expectation value. No field may have weight zero."
  },
  {
   "property": "C75",
   "status": "partial",
   "theorems": [
    "Verif.Main.exit_code_iff",
    "Verif.Main.exit_code_checkpoint_partial",
    "Verif.Main.exit_code_untouched",
    "Verif.Main.results_independent",
    "Verif.Main.results_silently_missing"
   ],
   "note": "Proved for the checkpoint if fclose does not fail (C67). False for the results: results_silently_missing shows exit code 0 with no result written, since SaveMeasurementData ignores the status of WriteData."
  },
  {
   "property": "C76",
   "status": "proved",
   "theorems": [
    "Verif.Measurement.normalizeUneq_mean",
    "Verif.Measurement.normalizePh_mean",
    "Verif.Measurement.accumulatePh_keeps"
   ],
   "note": "The kinetic energy is treated in C60; X_avg_sq lacks the sign (finding 19), which the theorem states."
  },
  {
   "property": "C77",
   "status": "proved",
   "theorems": [
    "Verif.MonteCarlo.simulate_stationary_ph",
    "Verif.MonteCarlo.program_stationary_ph"
   ],
   "note": "Ideal random numbers replace the xorshift generator. At least two slices: with a single slice the change of the energy of a local update is wrong (finding on L = 1). The distribution need not be normalisable. Stationarity only, no convergence."
  },
  {
   "property": "C78",
   "status": "proved",
   "theorems": [
    "Verif.MonteCarlo.simulate_expected_ph"
   ],
   "note": "Integrability of a contribution is part of what the property quantifies over (AddsPh); it is proved for all estimators of measurement.c under C82."
  },
  {
   "property": "C79",
   "status": "proved",
   "theorems": [
    "Verif.MonteCarlo.simulate_almost_surely_defined",
    "Verif.MonteCarlo.confWeight_dich",
    "Verif.MonteCarlo.program_stationary_ph"
   ],
   "note": "Ideal random numbers, at least two slices; exact real arithmetic."
  },
  {
   "property": "C80",
   "status": "proved",
   "theorems": [
    "Verif.MonteCarlo.freshField_preserving",
    "Verif.MonteCarlo.freshPaths_preserving",
    "Verif.MonteCarlo.fresh_preserving"
   ],
   "note": "Ideal random numbers replace the xorshift generator."
  },
  {
   "property": "C81",
   "status": "proved",
   "theorems": [
    "Verif.MonteCarlo.fresh_almost_surely_defined",
    "Verif.MonteCarlo.weight_exists",
    "Verif.MonteCarlo.program_fresh_ph"
   ],
   "note": "Ideal random numbers, exact real arithmetic. fresh_almost_surely_defined also covers uncoupled orbitals, if every field has a weight for some phonon coordinates."
  },
  {
   "property": "C82",
   "status": "proved",
   "theorems": [
    "Verif.MonteCarlo.expected_equal_times_ph",
    "Verif.MonteCarlo.expected_unequal_times_ph",
    "Verif.MonteCarlo.program_expected_ph"
   ],
   "note": ""
  },
  {
   "property": "C83",
   "status": "proved",
   "theorems": [
    "Verif.MonteCarlo.simulate_is_metropolis",
    "Verif.MonteCarlo.simulate_is_metropolis_ph",
    "Verif.MonteCarlo.perform_is_textbook",
    "Verif.MonteCarlo.process_is_textbook",
    "Verif.MonteCarlo.program_is_textbook",
    "Verif.MonteCarlo.parse_reads",
    "Verif.MonteCarlo.text_to_files",
    "Verif.MonteCarlo.exText_runs"
   ],
   "note": "text_to_files goes from the text of the parameter file to the contents of the result files; exText_runs is a concrete file with phonons and all kinds of measurements. The generator of random.c is part of both sides."
  },
  {
   "property": "C84",
   "status": "proved",
   "theorems": [
    "Verif.Measurement.Full.accumulateEq_estimates"
   ],
   "note": "measurement_full.c does not use pbc_shift; its pair operators use the neighbours without shift."
  },
  {
   "property": "C85",
   "status": "proved",
   "theorems": [
    "Verif.Measurement.Full.accumulateUneq_estimates"
   ],
   "note": "b1g on chains is excluded as in C65 (the formula is the same)."
  },
  {
   "property": "C86",
   "status": "proved",
   "theorems": [
    "Verif.Measurement.Full.average_of_full",
    "Verif.Measurement.Full.average_of_full_uneq",
    "Verif.Measurement.Full.accumulatePh_agree",
    "Verif.Measurement.Full.normalizePh_agree",
    "Verif.Measurement.Full.allocatePh_agree"
   ],
   "note": "Current correlations and the phonon energies exist only in measurement.c."
  },
  {
   "property": "C87",
   "status": "partial",
   "theorems": [
    "Verif.Measurement.Full.summary_factor_partial",
    "Verif.Measurement.Full.summary_differs",
    "Verif.Measurement.Full.summary_sum"
   ],
   "note": "False: measurement_full.c:301-308 does not divide by the average sign. summary_factor_partial: the numbers differ exactly by this factor; summary_differs is a sample with densities 2 and -2."
  },
  {
   "property": "C88",
   "status": "proved",
   "theorems": [
    "Verif.Measurement.Full.loadEq_saveEq",
    "Verif.Measurement.Full.loadUneq_saveUneq"
   ],
   "note": ""
  },
  {
   "property": "C89",
   "status": "partial",
   "theorems": [
    "Verif.MonteCarlo.program_reversed",
    "Verif.MonteCarlo.program_unreachable",
    "Verif.MonteCarlo.indifferent_reversed",
    "Verif.MonteCarlo.reachable_partial"
   ],
   "note": "False: program_unreachable gives fields which a run of any length almost surely does not reach; program_reversed says what happens instead. reachable_partial: true if reversing an entry always changes the weight."
  },
  {
   "property": "C90",
   "status": "proved",
   "theorems": [
    "Verif.MonteCarlo.program_converges",
    "Verif.MonteCarlo.program_fresh_converges",
    "Verif.MonteCarlo.equal_times_converge",
    "Verif.MonteCarlo.unequal_times_converge",
    "Verif.MonteCarlo.atomic_conditions"
   ],
   "note": "Needs an ideal source and the stated condition on the weights, which atomic_conditions proves without hopping for even L, and C104 for even L and all but finitely many dt."
  },
  {
   "property": "C91",
   "status": "proved",
   "theorems": [
    "Verif.Index.program_safe_iff",
    "Verif.Index.validated_safe_iff",
    "Verif.Index.validated_overflow",
    "Verif.Index.blockCyclicInverse_unsafe",
    "Verif.Index.tables_good"
   ],
   "note": "The model of accesses is written by hand from the source, separately from the numerical model. Needs 2*L <= 2^31, 2*(Nx-1)+pbc_shift <= INT_MAX and non-negative neqlt, nequil, nsampl, which the code does not check. Flip counters are not covered."
  },
  {
   "property": "C92",
   "status": "proved",
   "theorems": [
    "Verif.Fourier.create_status",
    "Verif.Fourier.create_ok",
    "Verif.Fourier.forward_coeff",
    "Verif.Fourier.forward_rest",
    "Verif.Fourier.round_trip",
    "Verif.Fourier.forward_inside",
    "Verif.Fourier.backward_inside",
    "Verif.Fourier.forward_exists",
    "Verif.Fourier.backward_exists",
    "Verif.Fourier.coeff_translate",
    "Verif.Fourier.coeff_translate_iff"
   ],
   "note": "The MKL transforms are contracts taken from the documentation of the library. The real arithmetic of the contract has no rounding."
  },
  {
   "property": "C93",
   "status": "proved",
   "theorems": [
    "Verif.Trotter.thermalPair_limit",
    "Verif.Trotter.thermalMean_limit",
    "Verif.Trotter.thermalMean_limit_symm",
    "Verif.Trotter.slices_limit",
    "Verif.Trotter.program_limit"
   ],
   "note": "Second order only for the equal time arrays of symmetric operators; first order for Green's functions, pairing and all unequal time arrays. Long runs use an ideal source and the hypotheses of C90. limit_generic (C104) has no hypothesis on the weights."
  },
  {
   "property": "C94",
   "status": "proved",
   "theorems": [
    "Verif.Heap.program_defined",
    "Verif.Heap.program_undef",
    "Verif.Heap.program_late",
    "Verif.Heap.profiler_same"
   ],
   "note": "Sections that run in parallel are modelled one after the other; malloc succeeds except where the program tests it."
  },
  {
   "property": "C95",
   "status": "partial",
   "theorems": [
    "Verif.Heap.program_balance",
    "Verif.Heap.program_noLeak",
    "Verif.Heap.program_phonon_leak",
    "Verif.Heap.matrixExp_leak",
    "Verif.Heap.readData_leak",
    "Verif.Heap.parse_leak"
   ],
   "note": "True without phonons (program_noLeak). False with phonons: exactly one block per measured time slice is lost (program_balance, program_phonon_leak). With failing library functions blocks and files are lost (matrixExp_leak, readData_leak, parse_leak)."
  },
  {
   "property": "C96",
   "status": "proved",
   "theorems": [
    "Verif.MonteCarlo.green_half_filling",
    "Verif.MonteCarlo.colored_particleHole",
    "Verif.Main.checkerboard_fits",
    "Verif.Main.orbitals_fits",
    "Verif.Main.run_half_filling",
    "Verif.Main.files_half_filling"
   ],
   "note": "Equal time arrays density, uu, dd and Green's functions, in exact arithmetic; files of runs which start from scratch. Unequal time arrays are in C122."
  },
  {
   "property": "C97",
   "status": "proved",
   "theorems": [
    "Verif.MonteCarlo.free_thermal",
    "Verif.MonteCarlo.free_gibbs",
    "Verif.Main.free_run"
   ],
   "note": "Equal time arrays except ff, in exact arithmetic; runs from scratch. Signals may end the run early; the file system must not fail."
  },
  {
   "property": "C98",
   "status": "proved",
   "theorems": [
    "Verif.MonteCarlo.EqHolds.spinSymmetric",
    "Verif.MonteCarlo.UneqHolds.spinSymmetric",
    "Verif.MonteCarlo.thermal_spinSymmetric",
    "Verif.MonteCarlo.gibbs_spinSymmetric",
    "Verif.MonteCarlo.holstein_spinSymmetric",
    "Verif.MonteCarlo.program_spinSymmetric",
    "Verif.MonteCarlo.program_spinSymmetric_ph"
   ],
   "note": "About expectation values and limits (C74, C78, C90, C93) with an ideal source, under the hypotheses of those properties."
  },
  {
   "property": "C99",
   "status": "proved",
   "theorems": [
    "Verif.Main.fileName_inj",
    "Verif.Main.own_disjoint",
    "Verif.Main.names_fit",
    "Verif.Main.program_usesOnly",
    "Verif.Main.programs_commute",
    "Verif.Main.crash_own"
   ],
   "note": "The log file is in the list of names, its text is not modelled. Directories are compared as strings (two strings may name one directory)."
  },
  {
   "property": "C100",
   "status": "proved",
   "theorems": [
    "Verif.Random.sixteen_bijective",
    "Verif.Random.sixteen_later",
    "Verif.Random.outputs_determine"
   ],
   "note": ""
  },
  {
   "property": "C101",
   "status": "proved",
   "theorems": [
    "Verif.Random.normal_law",
    "Verif.Random.normal_law_period",
    "Verif.Random.normal_law_words",
    "Verif.Random.normal_law_real",
    "Verif.Random.uniformOf_error"
   ],
   "note": "log, sqrt, sin and the last products in exact arithmetic; the uniform numbers with rounding. The function is not called by the program."
  },
  {
   "property": "C102",
   "status": "proved",
   "theorems": [
    "Verif.Decimal.strtol_text",
    "Verif.Decimal.strtol_junk",
    "Verif.Decimal.strtod_text",
    "Verif.Decimal.strtod_junk",
    "Verif.Decimal.atoi_intText",
    "Verif.Decimal.atoll_intText",
    "Verif.Decimal.atof_complete",
    "Verif.Params.parse_complete",
    "Verif.Params.parse_limits",
    "Verif.Params.junk_accepted"
   ],
   "note": "atoi, atoll and atof as in the C locale; hexadecimal numbers, inf and nan, integers outside the range of the type and doubles that overflow are left unspecified."
  },
  {
   "property": "C103",
   "status": "proved",
   "theorems": [
    "Verif.Params.Sheet.parse",
    "Verif.Main.samples_accepted",
    "Verif.Main.samples_textbook",
    "Verif.Main.samples_half_filled"
   ],
   "note": "The texts of the files are part of the model. That a run ends is a hypothesis, since a configuration of the field could have weight zero (C12)."
  },
  {
   "property": "C104",
   "status": "proved",
   "theorems": [
    "Verif.MonteCarlo.singularSteps_finite",
    "Verif.MonteCarlo.idleSteps_finite",
    "Verif.MonteCarlo.runs_generic",
    "Verif.MonteCarlo.converges_generic",
    "Verif.MonteCarlo.limit_generic"
   ],
   "note": "Finitely many dt are excepted; whether a given dt is one of them is not decided (at half filling and without hopping C64 and C90 do). With an odd number of slices reversing an entry can leave the weight unchanged for all dt."
  },
  {
   "property": "C105",
   "status": "proved",
   "theorems": [
    "Verif.MonteCarlo.equal_times_converge_ph",
    "Verif.MonteCarlo.unequal_times_converge_ph",
    "Verif.MonteCarlo.program_converges_ph",
    "Verif.MonteCarlo.program_fresh_converges_ph",
    "Verif.MonteCarlo.program_stationary_converges_ph"
   ],
   "note": "Needs an ideal source. Convergence in probability, without a rate. The number of slices is even unless all U are zero, because reversing an entry of the field may leave all weights unchanged otherwise."
  },
  {
   "property": "C106",
   "status": "proved",
   "theorems": [
    "Verif.Reflection.swap_nonneg",
    "Verif.MonteCarlo.trace_halves",
    "Verif.MonteCarlo.trace_halves_odd",
    "Verif.MonteCarlo.oddTerm_nonneg",
    "Verif.MonteCarlo.partition_positive",
    "Verif.MonteCarlo.program_partition_positive"
   ],
   "note": "Exact real arithmetic."
  },
  {
   "property": "C107",
   "status": "proved",
   "theorems": [
    "Verif.MonteCarlo.simulate32_iff",
    "Verif.MonteCarlo.simulate_counters",
    "Verif.MonteCarlo.counters_fit",
    "Verif.MonteCarlo.counters_overflow",
    "Verif.Main.process_counters_fit",
    "Verif.Main.validated_counters_overflow"
   ],
   "note": "The counters only; other ints are in C91. With uncoupled orbitals the number of attempts is random and the condition is sufficient only."
  },
  {
   "property": "C108",
   "status": "proved",
   "theorems": [
    "Verif.MonteCarlo.program_occupation",
    "Verif.MonteCarlo.program_occupation_ph",
    "Verif.MonteCarlo.program_occupation_long",
    "Verif.MonteCarlo.thermal_occupation",
    "Verif.MonteCarlo.gibbs_occupation",
    "Verif.MonteCarlo.holstein_occupation",
    "Verif.MonteCarlo.OccupationMeans.physical"
   ],
   "note": "Hypotheses on the program as in C90 (no phonons), C78 (expectation values with phonons) and C105 (long runs with phonons)."
  },
  {
   "property": "C109",
   "status": "proved",
   "theorems": [
    "Verif.MonteCarlo.program_local",
    "Verif.MonteCarlo.program_local_ph",
    "Verif.MonteCarlo.program_local_long",
    "Verif.MonteCarlo.thermal_local",
    "Verif.MonteCarlo.gibbs_local",
    "Verif.MonteCarlo.holstein_local",
    "Verif.MonteCarlo.shift_symmetric"
   ],
   "note": "Hypotheses on the program as in C90, C78 and C105."
  },
  {
   "property": "C110",
   "status": "proved",
   "theorems": [
    "Verif.Main.Full.program_full",
    "Verif.Main.Full.session_full",
    "Verif.Main.Full.process_full",
    "Verif.Main.Full.perform_full",
    "Verif.Main.Full.normalized_full",
    "Verif.Main.Full.realMeas_follows",
    "Verif.Main.Full.twin_mkSetup"
   ],
   "note": "For clean runs (no failing writes). The counters of measurement_full.c are assumed to start at zero (Finding 24)."
  },
  {
   "property": "C111",
   "status": "proved",
   "theorems": [
    "Verif.MonteCarlo.full_program_converges",
    "Verif.MonteCarlo.full_program_fresh_converges",
    "Verif.MonteCarlo.full_program_converges_ph",
    "Verif.MonteCarlo.full_equal_times_converge",
    "Verif.MonteCarlo.full_unequal_times_converge",
    "Verif.MonteCarlo.full_equal_times_converge_ph",
    "Verif.MonteCarlo.full_unequal_times_converge_ph"
   ],
   "note": "All fields except ff (no expectation value of an operator), jx and jy (not measured in this build). Hypotheses as in C90 and C105."
  },
  {
   "property": "C112",
   "status": "proved",
   "theorems": [
    "Verif.Stratonovich.fill_accurate",
    "Verif.Stratonovich.pos_close",
    "Verif.Stratonovich.neg_close",
    "Verif.Stratonovich.delta0_close",
    "Verif.Stratonovich.delta1_abs",
    "Verif.Stratonovich.delta1_zero",
    "Verif.Stratonovich.not_delta1_relative",
    "Verif.Stratonovich.naive_loses_everything",
    "Verif.Stratonovich.exact_fill"
   ],
   "note": "Standard model of floating-point arithmetic (relative error per operation, no overflow or underflow)."
  },
  {
   "property": "C113",
   "status": "proved",
   "theorems": [
    "Verif.MonteCarlo.inexact_long_runs",
    "Verif.MonteCarlo.robust_ratio",
    "Verif.MonteCarlo.program_robust",
    "Verif.MonteCarlo.program_noisy",
    "Verif.MonteCarlo.equal_times_robust",
    "Verif.MonteCarlo.unequal_times_robust",
    "Verif.MonteCarlo.noisy_tracking",
    "Verif.MonteCarlo.exact_tracking",
    "Verif.MonteCarlo.simulate_join",
    "Verif.MonteCarlo.roughBody_join",
    "Verif.MonteCarlo.factor_close"
   ],
   "note": "The accuracy of the computed Green's functions (eps) is a hypothesis, discharged for exact operations with relative errors of the factors; factor_close bounds eps by the error of the diagonal entries of the Green's functions."
  },
  {
   "property": "C114",
   "status": "proved",
   "theorems": [
    "Verif.Rounded.program_rounded",
    "Verif.Rounded.accurate_of_robust",
    "Verif.Rounded.tracking",
    "Verif.Rounded.measClose",
    "Verif.Rounded.construct_ok",
    "Verif.Rounded.step_tol",
    "Verif.Rounded.greenConstruct_lim",
    "Verif.Rounded.flOps_within",
    "Verif.Rounded.exact_lapack",
    "Verif.Rounded.exactTables_within",
    "Verif.Rounded.never_recomputed"
   ],
   "note": "The contracts for BLAS and LAPACK calls are hypotheses (met by exact linear algebra combined with rounded scalar operations: exact_lapack, flOps_within; and by the textbook algorithms: C120). u0 is not explicit. Phonons are excluded; for unequal time measurements see C117. If nwraps > L, which the program accepts, the Green's functions are never recomputed (never_recomputed)."
  },
  {
   "property": "C115",
   "status": "proved",
   "theorems": [
    "Verif.Rounded.program_rounded_run",
    "Verif.Rounded.Accurate.run",
    "Verif.Rounded.tables_close",
    "Verif.Rounded.kinetic_close",
    "Verif.Rounded.matrixExp_lin",
    "Verif.Rounded.hopping_lin",
    "Verif.Rounded.platform_exists",
    "Verif.FirstOrder.exp_sub_exp"
   ],
   "note": "The contracts for BLAS and LAPACK (for dsyev: nearly orthogonal eigenvectors of a nearby matrix, as in the LAPACK Users' Guide) are hypotheses. C is not explicit. Convergence of dsyev is assumed; the program ignores its failure (RectangularKineticExponential does not look at the result of MatrixExp)."
  },
  {
   "property": "C116",
   "status": "partial",
   "theorems": [
    "Verif.Progress.report_correct",
    "Verif.Progress.estimate_exact",
    "Verif.Progress.report_minus_one",
    "Verif.Progress.report_late",
    "Verif.Progress.iterations_limit",
    "Verif.Progress.overrun",
    "Verif.Progress.iterations_all"
   ],
   "note": "False for a signal between UpdateProgress() and (*iteration)++, where the count is one too small, and -1 at the end of the equilibration (report_minus_one, report_late). Estimates are computed exactly instead of in double; the clock is monotonic."
  },
  {
   "property": "C117",
   "status": "proved",
   "theorems": [
    "Verif.Rounded.program_rounded_all",
    "Verif.Rounded.accurateAll_of_robust",
    "Verif.Rounded.uneqClose",
    "Verif.Rounded.uneq_exact",
    "Verif.Rounded.compute_lim",
    "Verif.Rounded.inverse_lim",
    "Verif.Rounded.accumulateUneq_lim",
    "Verif.Rounded.block_lapack",
    "Verif.Rounded.compute_one_block"
   ],
   "note": "The contracts for BLAS and LAPACK calls are hypotheses (met by exact and by perturbed linear algebra: block_lapack; and by the textbook algorithms: C120). u0 is not explicit. Phonons are excluded. With prodBlen = L the unequal time measurement reads outside of the arrays in any arithmetic (compute_one_block, C12)."
  },
  {
   "property": "C118",
   "status": "proved",
   "theorems": [
    "Verif.MonteCarlo.UneqHolds.timeSymmetric",
    "Verif.MonteCarlo.UneqHolds.relaxing",
    "Verif.MonteCarlo.program_timeReflection",
    "Verif.MonteCarlo.program_timeReflection_limit",
    "Verif.MonteCarlo.program_timeReflection_ph",
    "Verif.MonteCarlo.thermalPair_timeInvariant",
    "Verif.MonteCarlo.holstein_timeInvariant",
    "Verif.Trotter.exists_gram",
    "Verif.Trotter.scalar_convex",
    "Verif.MonteCarlo.factor_convex",
    "Verif.MonteCarlo.factor_decreasing",
    "Verif.MonteCarlo.repOp_comm_pair"
   ],
   "note": "Hypotheses as in C74, C90 and C78. Positivity and convexity are proved without phonons only."
  },
  {
   "property": "C119",
   "status": "proved",
   "theorems": [
    "Verif.Dupio.duprintfs_eq",
    "Verif.Dupio.messages_eq",
    "Verif.Dupio.messages_copy",
    "Verif.Dupio.messages_perm",
    "Verif.Dupio.runs_log",
    "Verif.Dupio.order_differs"
   ],
   "note": "Formatting is not modelled; writes are assumed to succeed; signals within vprintf or vfprintf are excluded (finding 35)."
  },
  {
   "property": "C120",
   "status": "proved",
   "theorems": [
    "Verif.Reference.refArith_within",
    "Verif.Reference.refBlocks_within",
    "Verif.Reference.program_reference",
    "Verif.Reference.accurateRef_of_all",
    "Verif.Reference.accuracy_exists",
    "Verif.Reference.geqrf_spec",
    "Verif.Reference.larfg_spec",
    "Verif.Reference.getrf_spec",
    "Verif.Reference.getrs_spec",
    "Verif.Reference.trtri_spec"
   ],
   "note": "K and u0 are not explicit (compactness argument); no overflow or underflow, no fused multiply-add. The algorithms are unblocked, without scaling; for dgeqp3 any choice of the columns is allowed, but norm downdating does not appear since only the choice depends on it."
  },
  {
   "property": "C121",
   "status": "proved",
   "theorems": [
    "Verif.Reference.program_reference_run",
    "Verif.Reference.accurateRefRun_of_all",
    "Verif.Reference.platform_within",
    "Verif.Reference.lib_exists"
   ],
   "note": "Combines C115, C117 and C120. No overflow, underflow or fused multiply-add; u0, C and K are not explicit. dsyev and the library functions exp and expm1 are assumed accurate; lib_exists shows that an inexact library meets the requirements. The random numbers are ideal (C113). For an algorithm which meets the hypothesis on dsyev see C125."
  },
  {
   "property": "C122",
   "status": "proved",
   "theorems": [
    "Verif.Main.run_staggered",
    "Verif.Main.files_staggered",
    "Verif.Main.uneq_files_staggered",
    "Verif.MonteCarlo.holes_timeGreen",
    "Verif.MonteCarlo.program_antiferro",
    "Verif.MonteCarlo.hubbard_antiferro",
    "Verif.MonteCarlo.thermal_antiferro",
    "Verif.MonteCarlo.gibbs_antiferro",
    "Verif.MonteCarlo.hubbard_gibbs_antiferro"
   ],
   "note": "Exact real arithmetic. The convergence of runs needs the hypotheses of C90; the theorems about runs, files and expectation values do not."
  },
  {
   "property": "C123",
   "status": "proved",
   "theorems": [
    "Verif.Rounded.Ph.simulate_follows",
    "Verif.Rounded.Ph.simulate_close",
    "Verif.Rounded.Ph.fresh_close",
    "Verif.Rounded.Ph.program_rounded_ph",
    "Verif.Rounded.Ph.program_reference_ph"
   ],
   "note": "The bound depends on the random numbers of the run and on its length: the statement is about one run, not about the limit of long runs (see C124). Contracts for the operations are relative errors without overflow and underflow; dsyev by contract as in C121; the elimination with multipliers of at most 2 (proved for the textbook algorithm). Ideal source as in C77. All orbitals coupled, box width and dt not zero, at least two slices."
  },
  {
   "property": "C124",
   "status": "proved",
   "theorems": [
    "Verif.Rounded.Ph.program_rounded_converges_ph",
    "Verif.Rounded.Ph.program_reference_converges_ph",
    "Verif.Rounded.Ph.reliable_of_limit",
    "Verif.Rounded.Ph.Reliable.event",
    "Verif.MonteCarlo.program_signs_ph"
   ],
   "note": "The accuracy u0 depends on the number of iterations (not explicit), since a run follows the exact run only as long as no decision is too close; without phonons see C113 to C117 for bounds which do not. Operations of the arithmetic are arbitrary functions, so that the set of failing random numbers need not be an event: the statement bounds every event contained in it (Reliable), and its probability if it is one (Reliable.event). Contracts as in C123, conditions on the parameters as in C105. For an algorithm which meets the contract of dsyev see C125."
  },
  {
   "property": "C125",
   "status": "proved",
   "theorems": [
    "Verif.Reference.jacobi_accurate",
    "Verif.Reference.jacobiLib_relative",
    "Verif.Reference.program_scalar_run",
    "Verif.Reference.rotations_exist",
    "Verif.Rounded.Ph.program_scalar_converges_ph",
    "Verif.Rounded.Ph.elementary_exists",
    "Verif.Reference.schur2_exact",
    "Verif.Reference.off_step"
   ],
   "note": "LAPACK's dsyev uses a reduction to tridiagonal form and implicit QL, not Jacobi's method: the theorem says that the contract can be met by an algorithm in rounded arithmetic and which errors then remain as hypotheses. Overflow and underflow are not modelled (as in C120). The products with rotations are full matrix products, of which only the upper triangle is kept."
  },
  {
   "property": "C126",
   "status": "proved",
   "theorems": [
    "Verif.Binary.program_binary_run",
    "Verif.Rounded.Ph.program_binary_converges_ph",
    "Verif.Binary.scalars_nearest",
    "Verif.Binary.fl_representable",
    "Verif.Binary.fl_nearest",
    "Verif.Binary.fl_tie",
    "Verif.Binary.fl_exact",
    "Verif.Binary.fl_relative",
    "Verif.Binary.rotations"
   ],
   "note": "The range of the exponents is not bounded (no overflow, no subnormal numbers); no fused multiply-add; exp, expm1 and log are assumed to be rounded correctly, which libraries do not guarantee (C125 needs relative errors only). The constants C and D and the bound t0 are not explicit, so that nothing is said about 53 bits for given parameters."
  },
  {
   "property": "C127",
   "status": "proved",
   "theorems": [
    "Verif.Reference.Sums.error",
    "Verif.Reference.Sums.exact",
    "Verif.Reference.Reordered.within",
    "Verif.Reference.program_reordered_run",
    "Verif.Rounded.Ph.anyOrder_accurate",
    "Verif.Rounded.Ph.program_reordered_converges_ph",
    "Verif.Reference.reordered_self",
    "Verif.Reference.reordered_fused",
    "Verif.Rounded.Ph.anyOrder_exists"
   ],
   "note": "Products by the definition only, not by fast algorithms such as Strassen's. The factor of cblas_dtrmm is applied to the matrix before the product. The sums inside the QR decomposition, the triangular inversion and the applications of reflections are in the order of C120; blocked variants of these algorithms are not covered."
  },
  {
   "property": "C128",
   "status": "proved",
   "theorems": [
    "Verif.Main.free_run_uneq",
    "Verif.MonteCarlo.free_thermal_pair",
    "Verif.MonteCarlo.free_gibbs_pair",
    "Verif.MonteCarlo.free_timeGreen"
   ],
   "note": "Exact arithmetic; runs from scratch, file system without failures. The B1g Raman array on chains (one extent equal to one) is excluded as in C65. That such runs are defined is part of C97."
  },
  {
   "property": "C129",
   "status": "proved",
   "theorems": [
    "Verif.Profiler.program_measured",
    "Verif.Profiler.program_calls",
    "Verif.Profiler.measured",
    "Verif.Profiler.simulation_fine",
    "Verif.Profiler.simulation_count",
    "Verif.Profiler.keyOf_blk",
    "Verif.Profiler.key_inj",
    "Verif.Profiler.report_unique"
   ],
   "note": "The general claim C57 is false for nested blocks of the same name and for names with a dash; here it is shown that the program has neither. The calls are those of the blocks, loops and branches around them (Model/ProfileTrace.lean); the number of evaluated phonon proposals is arbitrary."
  },
  {
   "property": "C130",
   "status": "proved",
   "theorems": [
    "Verif.Main.program_debug_silent",
    "Verif.Main.program_debug_run",
    "Verif.MonteCarlo.debug_silent",
    "Verif.MonteCarlo.debug_results",
    "Verif.MonteCarlo.debugBody_logs",
    "Verif.MonteCarlo.debugTimeSlice_log",
    "Verif.MonteCarlo.debugPhTimeSlice_log",
    "Verif.MonteCarlo.simLoop_logs",
    "Verif.MonteCarlo.warnings_nil_iff",
    "Verif.MonteCarlo.warnings_mem",
    "Verif.MonteCarlo.uniformDistance_le_iff"
   ],
   "note": "Exact arithmetic: every warning of a debug build is an effect of rounding (or of overflow), not of the algorithm. The memory and the assertions of debug builds are not modelled here, nor is the leak check of main.c:294."
  }
 ]
}