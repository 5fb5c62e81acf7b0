{"id": "C01", "title": "Bounded random integers are in range and unbiased", "statement": "Random_GetBoundedUint(seed, bound) with bound > 0 only ever returns values < bound, and over the raw 64-bit draws that it accepts every value in [0, bound) is produced by exactly the same number of raw draws (no modulo bias); fewer than half of all raw draws are rejected.", "quantifier": "every bound in 1..2^64-1, every generator state, every raw draw", "why_tests_cant": "2^64 raw values times 2^64 bounds cannot be enumerated and bias of one part in 2^64 is invisible to statistics", "anchors": ["src/random.c:Random_GetBoundedUint", "src/random.c:Random_GetUint"]}
{"id": "C02", "title": "Shuffle visits every site exactly once, uniformly", "statement": "Random_Shuffle(seed, n, seq) leaves in seq a permutation of 0..n-1 whatever seq held before and whatever the generator returns, and each permutation arises from exactly one sequence of bounded draws, so unbiased draws give a uniform permutation. It never reads or writes outside seq[0..n-1].", "quantifier": "every n, every initial content of the array, every sequence of draws", "why_tests_cant": "n! permutations and all generator states; tests only sample", "anchors": ["src/random.c:Random_Shuffle"]}
{"id": "C03", "title": "Uniform samples lie in (0,1] and the normal sampler is always defined", "statement": "Random_GetUniform returns a value in (0, 1] for every 64-bit draw under any monotone rounding of the floating-point steps that keeps 1 and powers of two, so the logarithm and square root in Random_GetNormal are always applied inside their domain.", "quantifier": "every 64-bit draw, every monotone rounding", "why_tests_cant": "the end points 0 and 1 are hit with probability 2^-64", "anchors": ["src/random.c:Random_GetUniform", "src/random.c:Random_GetNormal"]}
{"id": "C04", "title": "The generator never degenerates", "statement": "Starting from Random_SeedInit with a non-zero argument the generator never reaches the all-zero state (from which it would return 0 for ever), two different states never merge into one, and two different accepted values of itime give different initial states.", "quantifier": "every non-zero seed, every number of draws", "why_tests_cant": "needs all seeds and unboundedly many draws", "anchors": ["src/random.c:Random_SeedInit", "src/random.c:Random_GetUint", "src/main.c:main"]}
{"id": "C05", "title": "A checkpoint preserves the random stream", "statement": "After SaveCheckpoint followed by LoadCheckpoint, the generator returns exactly the numbers it would have returned without saving and loading.", "quantifier": "every generator state (16 words and position)", "why_tests_cant": "only some positions of the generator counter fail, and a test of resuming compares noisy averages", "anchors": ["src/checkpoint.c:SaveCheckpoint", "src/checkpoint.c:LoadCheckpoint", "src/random.c:Random_GetUint"]}
{"id": "C06", "title": "The hash table is a finite map", "statement": "For every sequence of HashTableInsert, HashTableGet and HashTableRemove calls, on a table with any positive number of buckets and whatever keys collide: Get returns the value of the latest Insert of that key not followed by a Remove of it (NULL if none), Insert returns the previous value of the key (NULL if none), Remove returns the removed value, and operations on one key never affect another.", "quantifier": "every operation sequence, every key set, every bucket count > 0", "why_tests_cant": "collisions and operation histories are unbounded", "anchors": ["src/hash_table.c:HashTableInsert", "src/hash_table.c:HashTableGet", "src/hash_table.c:HashTableRemove"]}
{"id": "C07", "title": "Hash table bookkeeping and deletion", "statement": "n_entries always equals the number of keys present, and DeleteHashTable passes each stored value to the free function exactly once (nothing leaked, nothing freed twice).", "quantifier": "every operation sequence, every bucket count > 0", "why_tests_cant": "unbounded histories; double frees show up only for particular collision patterns", "anchors": ["src/hash_table.c:AllocateHashTable", "src/hash_table.c:DeleteHashTable"]}
{"id": "C08", "title": "Parameter files: values of a name are concatenated in file order", "statement": "After reading a parameter file, the value list of a name is the concatenation, in file order, of the values on all lines that start with that name; text after '#' and lines of other names have no influence, and a name without values is ignored.", "quantifier": "every file content, every name", "why_tests_cant": "unbounded inputs; interaction of long lines with the 1024-byte line buffer", "anchors": ["src/param_parser.c:ParseParameterFile", "src/param_parser.c:AppendValues"]}
{"id": "C09", "title": "Parameter files: defaults and errors", "statement": "A parameter not named in the file keeps its previous value (neqlt becomes L), list-valued parameters are zero-initialised when Norb is read, a missing or non-positive Norb gives -2, a list of wrong length gives -3, and otherwise the result is 0.", "quantifier": "every set of (name, value list) entries and every initial parameter struct", "why_tests_cant": "combinatorially many subsets of parameters", "anchors": ["src/param_parser.c:ParseParameterFile", "src/param_parser.c:AllocateSimulationParameters"]}
{"id": "C10", "title": "Hopping lists: checked indices, last definition wins", "statement": "ReadHoppings accepts a value list exactly when its length is a multiple of 3 and every orbital index is in 0..Norb-1; then t[a + Norb*b] is the value of the last triple (a, b, .) and every other entry is unchanged; no write outside the Norb*Norb array ever happens, even on rejected input.", "quantifier": "every value list, every Norb > 0", "why_tests_cant": "unbounded lists; memory safety on malformed input", "anchors": ["src/param_parser.c:ReadHoppings", "src/param_parser.c:ReadList"]}
{"id": "C11", "title": "Validation accepts exactly the documented parameter sets", "statement": "ValidateSimulationParameters returns 0 exactly when Norb, Nx, Ny, L, prodBlen are positive, no intra-cell bond joins an orbital with itself or is given in both directions, prodBlen divides L and nwraps, nwraps is positive and itime is non-zero; otherwise it returns -1.", "quantifier": "every parameter struct", "why_tests_cant": "infinitely many parameter sets; loops over orbital pairs", "anchors": ["src/param_parser.c:ValidateSimulationParameters"]}
{"id": "C12", "title": "Validated parameters never lead to undefined behaviour", "statement": "Every parameter set accepted by ValidateSimulationParameters can be simulated without a division by zero, an out-of-range index or the square root of a negative number in the set-up code.", "quantifier": "every accepted parameter set", "why_tests_cant": "the offending corners (neqlt = 0 with phonons, negative pbc_shift, L = prodBlen with unequal time measurements, U < 0) are each legal-looking inputs", "anchors": ["src/param_parser.c:ValidateSimulationParameters", "src/main.c:main", "src/kinetic.c:RectangularKineticExponential", "src/linalg.c:BlockCyclicQR", "src/stratonovich.c:FillStratonovichParameters"]}
{"id": "C13", "title": "Lattice offsets form a translation group", "statement": "The coordinate sum used for spatial averaging turns the unit cells into an abelian group for every lattice size and every non-negative pbc_shift: all indices stay in range, cell 0 is neutral, the sum is commutative and associative, and adding a fixed offset permutes the cells (so an offset k = 0 is the only one that maps a cell to itself).", "quantifier": "every Nx, Ny > 0, every pbc_shift >= 0, all cells", "why_tests_cant": "all lattice sizes and shifts", "anchors": ["src/measurement.c:ConstructLatticeCoordinateSumMap"]}
{"id": "C14", "title": "Nearest-neighbour maps agree with the lattice geometry", "statement": "The four nearest-neighbour maps used by the pairing, current and Raman measurements are mutually inverse permutations of the cells and step to the neighbour given by the lattice translation group, i.e. the same neighbours the hopping matrix uses.", "quantifier": "every Nx, Ny > 0, every pbc_shift, all cells", "why_tests_cant": "all lattice sizes; only twisted boundary conditions differ", "anchors": ["src/measurement.c:ConstructLatticeNearestNeighborMap", "src/kinetic.c:RectangularKineticExponential"]}
{"id": "C15", "title": "The hopping matrix is symmetric and is the sum of the given bonds", "statement": "RectangularKineticExponential builds a symmetric single-particle matrix whose off-diagonal entry between two different (cell, orbital) sites is minus the sum of the hopping amplitudes of all bonds joining them (repeated bonds on lattices of width 2 add up), and whose diagonal is -mu + eps of the orbital; no index leaves the matrix.", "quantifier": "every lattice size, orbital count, pbc_shift >= 0 and all hopping amplitudes", "why_tests_cant": "all sizes and amplitudes; width-1 and width-2 lattices are special", "anchors": ["src/kinetic.c:RectangularKineticExponential"]}
{"id": "C16", "title": "The hopping matrix is translation invariant", "statement": "Translating both cells by the same lattice offset, in the sense of the coordinate sum map used by the measurements, leaves every entry of the hopping matrix unchanged, also for twisted boundary conditions.", "quantifier": "every lattice size, pbc_shift >= 0, all hopping amplitudes, all pairs of sites, all offsets", "why_tests_cant": "all sizes and offsets", "anchors": ["src/kinetic.c:RectangularKineticExponential", "src/measurement.c:ConstructLatticeCoordinateSumMap"]}
{"id": "C17", "title": "Kinetic exponentials are exact inverses", "statement": "The two stored matrices are exp(-dt K) and exp(+dt K) of the hopping matrix K: they are symmetric, positive definite and inverse to each other for every orthonormal eigendecomposition the eigensolver may return.", "quantifier": "every hopping matrix, every valid eigendecomposition", "why_tests_cant": "all matrices; degenerate eigenvalues leave the eigensolver free choice", "anchors": ["src/linalg.c:MatrixExp", "src/kinetic.c:RectangularKineticExponential"]}
{"id": "C18", "title": "Every hopping amplitude given reaches the Hamiltonian", "statement": "Each bond of the parameter file contributes to the hopping matrix on every accepted lattice.", "quantifier": "every accepted parameter set", "why_tests_cant": "only lattices of width 1 (where a bond wraps onto its own site) are affected", "anchors": ["src/kinetic.c:RectangularKineticExponential"]}
{"id": "C19", "title": "The Hubbard-Stratonovich decoupling is exact", "statement": "For every U >= 0 and dt >= 0 and every occupation of a site, averaging the product of the spin-up and spin-down factors exp(V) over the two field values gives exp(-dt U (n_up - 1/2)(n_down - 1/2)) times the constant exp(dt U/4).", "quantifier": "every U >= 0, dt >= 0, both occupations", "why_tests_cant": "continuous parameters", "anchors": ["src/stratonovich.c:FillStratonovichParameters"]}
{"id": "C20", "title": "The precomputed flip factors are consistent", "statement": "The four tabulated exponentials are positive and pairwise reciprocal, spin-down is spin-up with the field reversed, and 1 + delta[s] is exactly the factor by which the spin-up exponential changes when the field flips from s to 1-s (and delta[1-s] for spin-down).", "quantifier": "every U >= 0, dt >= 0, every field value", "why_tests_cant": "continuous parameters; algebraically rearranged formulas", "anchors": ["src/stratonovich.c:FillStratonovichParameters"]}
{"id": "C21", "title": "Stored inverse time-step matrices are inverses", "statement": "For every Hubbard-Stratonovich field and every phonon field with coherent exponentials, each stored inverse time-step matrix is the two-sided inverse of the stored time-step matrix, which equals diag(exp V) exp(-dt K).", "quantifier": "every field configuration, every slice, with and without phonons", "why_tests_cant": "2^(N L) configurations", "anchors": ["src/time_flow.c:ComputeTimeStepMatrix", "src/time_flow.c:ComputeInverseTimeStepMatrix", "src/time_flow.c:ComputePhononTimeStepMatrix", "src/time_flow.c:ComputeInversePhononTimeStepMatrix"]}
{"id": "C22", "title": "Matrix products are formed in time order in the right buffer", "statement": "MatrixProductSequence leaves A_{num-1} ... A_1 A_0 in the result argument for every num > 0, whatever the result buffer held, and does not change its inputs.", "quantifier": "every num > 0, all matrices, all initial buffer contents", "why_tests_cant": "parity of num decides which buffer holds the result", "anchors": ["src/linalg.c:MatrixProductSequence"]}
{"id": "C23", "title": "Cached products are fresh whenever they are read", "statement": "During any number of sweeps, every time the Green's function is reconstructed or an unequal-time measurement is made, all cached products of time-step matrices equal the products of the time-step matrices of the current field.", "quantifier": "every accepted (L, prodBlen, nwraps), any number of sweeps, any update decisions", "why_tests_cant": "stale caches only matter at particular slices and schedules", "anchors": ["src/time_flow.c:UpdateTimeStepMatrices", "src/time_flow.c:InitTimeStepMatrices", "src/monte_carlo.c:DQMCIteration"]}
{"id": "C24", "title": "The stabilised time flow map equals the ordered product", "statement": "TimeFlowMap returns Q, d, T with Q orthogonal and Q diag(d) T equal to the product of the cached matrices in cyclic time order starting at slice_shift, for every QR decomposition LAPACK may return and also when diagonal entries of R vanish.", "quantifier": "all matrices, all shifts that are multiples of prodBlen, any number of factors", "why_tests_cant": "all matrices; rank-deficient corner cases", "anchors": ["src/time_flow.c:ComputeTimeStepMatrix"]}
{"id": "C25", "title": "Pre-pivoting is a sorting permutation", "statement": "The pivot order computed from the column norms is a permutation of the columns, sorted by decreasing norm and stable for ties.", "quantifier": "every N, every vector of norms", "why_tests_cant": "N! orderings and ties", "anchors": ["src/time_flow.c:ComputeTimeStepMatrix"]}
{"id": "C26", "title": "GreenConstruct computes (1 + A)^-1", "statement": "Whenever 1 + A is invertible, A being the cyclically ordered product of the time-step matrices, GreenConstruct leaves exactly (1 + A)^-1 in the Green's function matrix.", "quantifier": "all matrices and shifts", "why_tests_cant": "all matrices; big/small splitting of the scales", "anchors": ["src/greens_func.c:GreenConstruct", "src/time_flow.c:ComputeTimeStepMatrix"]}
{"id": "C27", "title": "GreenConstruct computes the determinant and its sign", "statement": "After GreenConstruct, sgndet * exp(logdet) is exactly the determinant of the Green's function matrix (the inverse of det(1 + A)), and sgndet is +1 or -1.", "quantifier": "all matrices and shifts", "why_tests_cant": "sign bookkeeping over pivots, negative scales and reflections", "anchors": ["src/greens_func.c:GreenConstruct"]}
{"id": "C28", "title": "Rank-one update is exact", "statement": "If G = (1 + A)^-1 and row i of A is multiplied by 1 + delta, then GreenShermanMorrisonUpdate turns G into the new (1 + A')^-1, and the determinant ratio det(1 + A')/det(1 + A) is 1 + (1 - G_ii) delta, whenever that ratio is non-zero.", "quantifier": "all matrices, sites and delta", "why_tests_cant": "continuous data", "anchors": ["src/greens_func.c:GreenShermanMorrisonUpdate", "src/monte_carlo.c:DQMCIteration"]}
{"id": "C29", "title": "Wrapping advances the Green's function by one slice", "statement": "Given the Green's function of the product that starts at slice l, GreenTimeSliceWrap with the matrices of slice l yields the Green's function of the product starting at slice l+1, with the same determinant.", "quantifier": "all matrices and slices", "why_tests_cant": "all matrices", "anchors": ["src/greens_func.c:GreenTimeSliceWrap"]}
{"id": "C30", "title": "The Green's function always belongs to the current field", "statement": "At every step of every sweep, with any random numbers, both Green's function matrices equal (1 + A)^-1 of the current field at the current slice and both determinant records are exact, so that recomputation only removes rounding errors and all measurements see the right matrix.", "quantifier": "every field, every random sequence, any number of sweeps, every accepted (L, prodBlen, nwraps)", "why_tests_cant": "histories are unbounded", "anchors": ["src/monte_carlo.c:DQMCIteration", "src/monte_carlo.c:DQMCSimulation"]}
{"id": "C31", "title": "Field flips satisfy detailed balance", "statement": "The probability with which a flip of one Hubbard-Stratonovich field entry is accepted is min(1, W'/W) where W is the absolute value of the product of the two fermion determinants of the complete configuration; hence flips satisfy detailed balance with respect to W.", "quantifier": "every field, site and slice", "why_tests_cant": "needs all configurations and exact determinants", "anchors": ["src/monte_carlo.c:DQMCIteration"]}
{"id": "C32", "title": "The Hubbard-Stratonovich field stays binary and changes only where proposed", "statement": "All entries stay in {0,1} through any number of sweeps, and while slice l is processed only entries of slice l change, each at most once per sweep.", "quantifier": "every history", "why_tests_cant": "unbounded histories", "anchors": ["src/monte_carlo.c:DQMCIteration"]}
{"id": "C33", "title": "Skipping field updates without interaction is harmless", "statement": "If U is zero in all orbitals the weight and all Green's functions are independent of the Hubbard-Stratonovich field, so skipping its updates does not change any result.", "quantifier": "every field, every dt", "why_tests_cant": "all configurations", "anchors": ["src/monte_carlo.c:DQMCSimulation", "src/stratonovich.c:FillStratonovichParameters"]}
{"id": "C34", "title": "Local phonon updates satisfy detailed balance", "statement": "The acceptance test of a local phonon update compares the uniform number with the exact ratio of |det det| exp(-dt E_phonon) of the complete configuration, E_phonon containing the potential and the periodic imaginary-time kinetic energy, so that with the symmetric proposal detailed balance holds.", "quantifier": "every field configuration, site, slice, displacement, L", "why_tests_cant": "continuous fields; L = 1 is special", "anchors": ["src/monte_carlo.c:DQMCPhononIteration"]}
{"id": "C35", "title": "Block and flip phonon updates: detailed balance and exact rollback", "statement": "Block shifts and flips of the phonon field of one site are accepted with the exact ratio of the full weight; the flip is an involution; a rejected update leaves both phonon arrays, the time-step matrices and the Green's functions exactly as they were.", "quantifier": "every configuration, site, displacement", "why_tests_cant": "continuous fields", "anchors": ["src/monte_carlo.c:PhononBlockUpdates", "src/monte_carlo.c:PhononFlipUpdates"]}
{"id": "C36", "title": "Phonon exponentials stay coherent", "statement": "At all times expX equals exp(-dt g X) entry by entry.", "quantifier": "any number of updates of any kind", "why_tests_cant": "unbounded histories", "anchors": ["src/main.c:main", "src/monte_carlo.c:DQMCPhononIteration", "src/monte_carlo.c:PhononBlockUpdates", "src/monte_carlo.c:PhononFlipUpdates"]}
{"id": "C37", "title": "Acceptance counters are consistent", "statement": "In each of the three phonon counters the number of accepted updates never exceeds the number of attempted ones, and exactly the updates on coupled sites are counted as attempted.", "quantifier": "any number of sweeps and random numbers", "why_tests_cant": "unbounded histories", "anchors": ["src/monte_carlo.c:DQMCPhononIteration", "src/monte_carlo.c:PhononBlockUpdates", "src/monte_carlo.c:PhononFlipUpdates"]}
{"id": "C38", "title": "Number of equal time samples", "statement": "An uninterrupted run takes exactly nsampl * floor(L/neqlt) equal time samples (none if neqlt <= 0), none of them during equilibration.", "quantifier": "every accepted parameter set", "why_tests_cant": "all parameter combinations", "anchors": ["src/monte_carlo.c:DQMCSimulation", "src/monte_carlo.c:DQMCIteration"]}
{"id": "C39", "title": "Number of unequal time samples", "statement": "An uninterrupted run takes one unequal time sample in exactly those measurement iterations whose global number is a multiple of nuneqlt, and stopping and resuming any number of times does not change which iterations are sampled.", "quantifier": "every parameter set, every set of stop points", "why_tests_cant": "all stop points", "anchors": ["src/monte_carlo.c:DQMCSimulation"]}
{"id": "C40", "title": "The phonon sample buffer never overflows", "statement": "The number of phonon samples taken never exceeds the capacity nsampl*L/neqlt allocated for them, so every write to the per-sample buffers is in range.", "quantifier": "every parameter set with neqlt > 0, any history of one process", "why_tests_cant": "all parameter combinations and rounding of the division", "anchors": ["src/main.c:main", "src/measurement.c:AllocatePhononData", "src/measurement.c:AccumulatePhononData"]}
{"id": "C41", "title": "Equal time estimators are the translation-averaged Wick contractions", "statement": "Each call of AccumulateMeasurement adds to every density, occupancy, density-density, spin-spin and pairing accumulator exactly sign times the average over all cells of the Wick contraction of the corresponding operator for the given pair of Green's functions.", "quantifier": "all Green's functions, lattices, orbitals and offsets", "why_tests_cant": "continuous data, all sizes", "anchors": ["src/measurement.c:AccumulateMeasurement"]}
{"id": "C42", "title": "Sum rules between accumulators", "statement": "At all times zz = uu + dd - ud for every offset and orbital pair, the on-site same-orbital uu and dd correlations equal the densities, on-site ud is twice the double occupancy, and on-site xx equals zz.", "quantifier": "every history of accumulations and normalisation", "why_tests_cant": "unbounded histories", "anchors": ["src/measurement.c:AccumulateMeasurement", "src/measurement.c:NormalizeMeasurementData"]}
{"id": "C43", "title": "Reported averages are sign-weighted means, independent of sample order", "statement": "After normalisation every accumulator holds the arithmetic mean over the samples of sign times the per-sample value, whatever the order in which the samples were taken or how they were split between runs; nsampl counts the samples.", "quantifier": "every list of samples, every order, every split", "why_tests_cant": "unbounded sample lists", "anchors": ["src/measurement.c:AccumulateMeasurement", "src/measurement.c:NormalizeMeasurementData"]}
{"id": "C44", "title": "Unequal time Green's functions are exact for every time", "statement": "ComputeUnequalTimeGreensFunction fills the three arrays with G(tau,0), G(0,tau) and G(tau,tau) of the current field for every tau in 0..L-1, also between the block boundaries, whenever there are at least two blocks.", "quantifier": "all matrices, all L, prodBlen with L/prodBlen >= 2, all tau", "why_tests_cant": "all sizes and all times", "anchors": ["src/greens_func.c:ComputeUnequalTimeGreensFunction"]}
{"id": "C45", "title": "The structured block inversion is an inversion", "statement": "BlockCyclicInverse turns every invertible block p-cyclic matrix with p >= 2 into its inverse, for every QR factorisation LAPACK may return.", "quantifier": "all block sizes, all p >= 2, all matrices", "why_tests_cant": "all sizes; p = 2, 3 and > 3 take different paths", "anchors": ["src/linalg.c:BlockCyclicQR", "src/linalg.c:BlockCyclicTriangularInverse", "src/linalg.c:BlockCyclicInverseRotation", "src/linalg.c:BlockCyclicInverse"]}
{"id": "C46", "title": "Unequal time measurements at time difference zero agree with equal time measurements", "statement": "With the same Green's function, the tau = 0 entries of the unequal time spin and pairing correlations equal the equal time ones.", "quantifier": "all Green's functions and lattices", "why_tests_cant": "the unit test checks one lattice with random numbers", "anchors": ["src/measurement.c:AccumulateUnequalTimeMeasurement", "src/measurement.c:AccumulateMeasurement"]}
{"id": "C47", "title": "Stopping and resuming is invisible", "statement": "A run that is stopped after any iteration, saved, and resumed in a new process ends with the same field, random state and measurement sums as an uninterrupted run.", "quantifier": "every stop point, every number of restarts, every seed", "why_tests_cant": "all stop points; statistical tests cannot see a changed random stream", "anchors": ["src/main.c:main", "src/checkpoint.c:SaveCheckpoint", "src/checkpoint.c:LoadCheckpoint", "src/measurement.c:SaveMeasurementData", "src/measurement.c:LoadMeasurementData"]}
{"id": "C48", "title": "A finished run can be extended", "statement": "Rerunning with a larger nsampl after completion yields the averages of one longer run.", "quantifier": "every nsampl and extension", "why_tests_cant": "needs comparing two long runs", "anchors": ["src/main.c:main", "src/measurement.c:NormalizeMeasurementData", "src/measurement.c:LoadMeasurementData"]}
{"id": "C49", "title": "A crash while saving never yields a wrong checkpoint", "statement": "If the process dies at any point during SaveCheckpoint, the next start either begins from scratch, refuses to start, or continues from the old or from the new state, never from a mixture.", "quantifier": "every crash point, every previous directory content", "why_tests_cant": "crash points are unbounded", "anchors": ["src/checkpoint.c:SaveCheckpoint", "src/checkpoint.c:LoadCheckpoint", "src/checkpoint.c:SearchCheckpoint", "src/util.c:WriteData"]}
{"id": "C50", "title": "A crash between checkpoint and results never loses samples", "statement": "If the process dies after the checkpoint but before or while the measurement results are written, the next run does not silently continue with fewer samples than iterations.", "quantifier": "every crash point", "why_tests_cant": "crash points", "anchors": ["src/main.c:main", "src/measurement.c:SaveMeasurementData", "src/measurement.c:LoadMeasurementData"]}
{"id": "C51", "title": "Binary files round-trip and wrong sizes are rejected", "statement": "ReadData returns exactly what WriteData stored; on a missing file it returns -1 and on a file of any other size -2, and in both cases the destination is untouched.", "quantifier": "every data content and size, every previous file", "why_tests_cant": "all sizes", "anchors": ["src/util.c:ReadData", "src/util.c:WriteData"]}
{"id": "C52", "title": "Loading a checkpoint yields a valid state or an error", "statement": "LoadCheckpoint either fails or yields a field with entries 0 or 1 of the size of the lattice; a checkpoint of a lattice with a different number of field entries is rejected.", "quantifier": "every directory content", "why_tests_cant": "all file contents", "anchors": ["src/checkpoint.c:LoadCheckpoint"]}
{"id": "C53", "title": "Measurement results round-trip through the disk", "statement": "Loading measurement data after saving restores every accumulator and the sample count, and a missing or damaged file is noticed.", "quantifier": "every accumulator content", "why_tests_cant": "all contents", "anchors": ["src/measurement.c:SaveMeasurementData", "src/measurement.c:LoadMeasurementData", "src/measurement.c:SaveUnequalTimeMeasurementData", "src/measurement.c:LoadUnequalTimeMeasurementData"]}
{"id": "C54", "title": "Stop requests take effect only between iterations", "statement": "A SIGINT or an expired time limit ends the run before the next iteration starts, never inside one; the iteration counter saved equals the number of completed iterations and the exit code is 1.", "quantifier": "every arrival time of the signal", "why_tests_cant": "arrival times", "anchors": ["src/monte_carlo.c:DQMCSimulation", "src/checkpoint.c:StopOnSIGINT", "src/main.c:main"]}
{"id": "C55", "title": "Results are normalised exactly when the run is complete", "statement": "Measurement data are divided by the sample count if and only if all nequil + nsampl iterations are done; a partial run stores raw sums. An already complete checkpoint is left untouched.", "quantifier": "every run", "why_tests_cant": "all stop points", "anchors": ["src/main.c:main"]}
{"id": "C56", "title": "Progress reports the true phase", "statement": "While iterations run, the reported state is EQUILIB exactly as long as fewer than nequil iterations are done, MEASURE from then on, OUTPUT exactly when all are done, also after a resume; the per-phase iteration count equals the iterations of the phase done in this run.", "quantifier": "every start iteration and number of iterations", "why_tests_cant": "all resume points", "anchors": ["src/progress.c:InitProgressTracking", "src/progress.c:UpdateProgress", "src/monte_carlo.c:DQMCSimulation"]}
{"id": "C57", "title": "Profiler times are the measured intervals", "statement": "For properly paired Profile_Begin/Profile_End calls the total of a name is the sum of its outermost intervals and the call count is their number, independently of other names and of other threads.", "quantifier": "every well-nested call history, any interleaving of threads", "why_tests_cant": "unbounded histories, interleavings", "anchors": ["src/profiler.c:Profile_Begin", "src/profiler.c:Profile_End"]}
{"id": "C58", "title": "Parallel sections are schedule independent", "statement": "The two OpenMP sections of every parallel region touch disjoint data, so every interleaving of their steps gives the result of running them one after the other.", "quantifier": "every interleaving", "why_tests_cant": "schedules", "anchors": ["src/monte_carlo.c:DQMCIteration", "src/monte_carlo.c:DQMCSimulation"]}
{"id": "C59", "title": "Resuming preserves the phonon field and statistics", "statement": "A stopped and resumed Hubbard-Holstein run continues with the phonon field, phonon sums and acceptance counters it had.", "quantifier": "every stop point", "why_tests_cant": "all stop points", "anchors": ["src/main.c:main", "src/checkpoint.c:SaveCheckpoint", "src/measurement.c:SavePhononData"]}
{"id": "C60", "title": "Phonon energies are reported per orbital", "statement": "Each sample adds to the potential and kinetic phonon energy of every orbital that orbital's own estimator: PE_o = omega^2/2 <X^2>, KE_o = 1/(2 dt) - <(dX/dt)^2>/2.", "quantifier": "all phonon fields, orbital counts, lattices", "why_tests_cant": "continuous data; only more than one orbital is affected", "anchors": ["src/measurement.c:AccumulatePhononData"]}
{"id": "C61", "title": "Measurement indices stay in range", "statement": "Every array access of AccumulateMeasurement is inside the arrays allocated by AllocateMeasurementData, for every lattice with pbc_shift >= 0.", "quantifier": "every lattice and orbital count", "why_tests_cant": "all sizes", "anchors": ["src/measurement.c:AllocateMeasurementData", "src/measurement.c:AccumulateMeasurement"]}
{"id": "C62", "title": "Density estimators are fermionic expectation values", "statement": "1 - G_ii and the two-point density formula are the expectation values of n_i and n_i n_j in the weight that assigns det(A restricted to S) to each set S of occupied sites, whose total is det(1 + A).", "quantifier": "all matrices A and pairs of sites", "why_tests_cant": "continuous data, exponentially many occupations", "anchors": ["src/measurement.c:AccumulateMeasurement", "src/greens_func.c:GreenConstruct"]}
{"id": "C63", "title": "No sign without interaction", "statement": "If U is zero in all orbitals, with or without phonons, both spin species have the same Green's function in every configuration and the sign of every sample is +1.", "quantifier": "all lattices, hoppings, fields, phonon displacements, slices", "why_tests_cant": "continuous data and all sizes", "anchors": ["src/monte_carlo.c:DQMCIteration", "src/stratonovich.c:FillStratonovichParameters", "src/greens_func.c:GreenConstruct"]}
{"id": "C64", "title": "No sign problem at half filling on even lattices", "statement": "On lattices with even Nx, Ny and pbc_shift, with hopping only between horizontal and vertical neighbours (within or between orbitals) and site energies equal to the chemical potential, the sign of every sample is +1 for every Hubbard-Stratonovich field.", "quantifier": "all such lattices, hopping amplitudes, interactions U >= 0, fields, time steps and slices", "why_tests_cant": "continuous data, exponentially many fields, all sizes", "anchors": ["src/kinetic.c:RectangularKineticExponential", "src/time_flow.c:ComputeTimeStepMatrix", "src/greens_func.c:GreenConstruct", "src/monte_carlo.c:DQMCIteration"]}
{"id": "C65", "title": "Unequal time estimators are translation-averaged Wick contractions", "statement": "Each call of AccumulateUnequalTimeMeasurement adds to every Green's function, density, spin, pairing, current and Raman correlation, for every time difference, exactly sign times the average over all cells of the Wick contraction of the corresponding operators (for the B1g Raman correlations: unless exactly one of Nx, Ny equals 1).", "quantifier": "all time dependent Green's functions with G(0,0) consistent, lattices, orbitals, offsets, time differences", "why_tests_cant": "continuous data, all sizes", "anchors": ["src/measurement.c:AccumulateUnequalTimeMeasurement"]}
{"id": "C66", "title": "Phonon observables are sign-weighted lattice averages", "statement": "Each call of AccumulatePhononData adds, for every orbital, sign times the average over all cells and slices of displacement, squared displacement, squared velocity and density times displacement; the average velocity gets nothing; the per-sample slots get the averages of this sample.", "quantifier": "all phonon fields, lattices, orbital counts, time steps, previous contents", "why_tests_cant": "continuous data, all sizes", "anchors": ["src/measurement.c:AccumulatePhononData"]}
{"id": "C67", "title": "A successful WriteData has stored everything", "statement": "If WriteData returns 0 then the file contains exactly the data (appended to the old content in append mode).", "quantifier": "every data content, previous file and failing system call", "why_tests_cant": "failures of the file system are hard to provoke and their combinations unbounded", "anchors": ["src/util.c:WriteData"]}
{"id": "C68", "title": "The generator has the full period 2^1024 - 1", "statement": "From every state with a non-zero word the sequence of 64-bit numbers returned by Random_GetUint has the period 2^1024 - 1 and no period that is not a multiple of it; within one period every sixteen consecutive 64-bit values except sixteen zeros occur exactly once, so each value occurs equally often (zero once less).", "quantifier": "every generator state, every position in the stream, every 16-tuple of words", "why_tests_cant": "the period has 309 decimal digits", "anchors": ["src/random.c:Random_GetUint", "src/random.c:Random_SeedInit"]}
{"id": "C69", "title": "The Green's functions are operator expectation values", "statement": "For both spins together, the inverse of 1 + A (A the cyclic product of the time step matrices) and the unequal time matrices G(tau,0), G(0,tau), G(tau,tau) which the code computes are the expectation values <c_a(tau) c+_b(0)>, -<c+_b(tau) c_a(0)>, <c_a(tau) c+_b(tau)> of fermion operators on the Fock space, with the traces taken over all occupations.", "quantifier": "all numbers of sites, time slices and slices l <= L, all time step matrices with non-vanishing weight", "why_tests_cant": "the Fock space has dimension 4^N; continuous data", "anchors": ["src/greens_func.c:GreenConstruct", "src/greens_func.c:ComputeUnequalTimeGreensFunction"]}
{"id": "C70", "title": "The estimators are operator expectation values (Wick's theorem)", "statement": "The contractions which specify what the measurements accumulate are expectation values of products of operators on the Fock space: of two one-body operators at times tau and 0, of one one-body operator, and of a pair operator with the adjoint of another one.", "quantifier": "all operators given by finite lists of terms, all times, all time step matrices with non-vanishing weight", "why_tests_cant": "quantifies over operators on an exponentially large space", "anchors": ["src/measurement.c:AccumulateMeasurement", "src/measurement.c:AccumulateUnequalTimeMeasurement"]}
{"id": "C71", "title": "Summing over the fields gives the Hubbard partition function", "statement": "The sum over all Hubbard-Stratonovich fields of det(1 + A_up) det(1 + A_down), with the matrices of the code, equals up to an explicit positive constant the trace of the L-th power of exp(-dt V) exp(-dt T) for the Hubbard Hamiltonian with the bonds, orbital energies, chemical potential and repulsion of the parameters; in particular the average sign is positive. With a time dependent potential (phonons) the same holds for the ordered product of the time steps.", "quantifier": "all accepted parameters within the guards, every number of time slices", "why_tests_cant": "2^(N L) fields", "anchors": ["src/stratonovich.c:FillStratonovichParameters", "src/kinetic.c:RectangularKineticExponential", "src/time_flow.c:InitTimeStepMatrices", "src/monte_carlo.c:DQMCSimulation"]}
{"id": "C72", "title": "Averages with signs over the fields are thermal expectation values", "statement": "If no weight vanishes, averaging sign times estimator with the absolute weights as probabilities and dividing by the average sign gives the thermal expectation value of the measured operators in the Hubbard model of the parameters (in the Trotter approximation), for equal and for unequal times.", "quantifier": "all accepted parameters within the guards, all one-body and pair operators, all slices", "why_tests_cant": "2^(N L) fields, exponentially large operators", "anchors": ["src/measurement.c:AccumulateMeasurement", "src/measurement.c:AccumulateUnequalTimeMeasurement", "src/monte_carlo.c:DQMCSimulation"]}
{"id": "C73", "title": "The weights are stationary for the whole simulation", "statement": "If the random numbers are ideal (uniform, independent, orders equally likely) and the initial Hubbard-Stratonovich field is distributed in proportion to the absolute weights |det(1 + A_up) det(1 + A_down)|, then the field at the end of the simulation has the same distribution and is independent of the state of the source. This is a statement about the composition of all site updates, wraps, recomputations and measurements of DQMCSimulation, not only about a single update.", "quantifier": "all numbers of sites, slices and iterations, all defined runs without phonons, every rule for stopping that does not look at the random numbers", "why_tests_cant": "distributions over 2^(N L) fields; a wrong acceptance rate changes averages slightly", "anchors": ["src/monte_carlo.c:DQMCSimulation", "src/monte_carlo.c:DQMCIteration", "src/random.c:Random_GetUniform", "src/random.c:Random_Shuffle"]}
{"id": "C74", "title": "The expected results of a run are thermal expectation values of the Hubbard model", "statement": "For such a run the expectation value of every accumulated quantity, divided by the expectation value of the accumulated sign, is the thermal expectation value of the corresponding operator in the Hubbard model of the parameters (in the Trotter approximation): densities, double occupancy, Green's function, density, spin and pair correlations at equal times; Green's functions, correlations, and pair correlations at unequal times.", "quantifier": "all accepted parameters within the guards with non-zero weights and without phonons, all numbers of iterations with at least one measurement", "why_tests_cant": "needs the exact distribution and exponentially large operators", "anchors": ["src/monte_carlo.c:DQMCSimulation", "src/measurement.c:AccumulateMeasurement", "src/measurement.c:AccumulateUnequalTimeMeasurement"]}
{"id": "C75", "title": "The exit code tells whether checkpoint and results are on disk", "statement": "If the program ends with exit code 0 or 1 then all files of the checkpoint and of the results have been written completely; if a file of the checkpoint cannot be written the exit code is -7 and no other file is touched.", "quantifier": "every combination of failing system calls, every state at the end of the run, every previous content of the directory", "why_tests_cant": "combinations of failures of the file system", "anchors": ["src/main.c:main", "src/checkpoint.c:SaveCheckpoint", "src/measurement.c:SaveMeasurementData", "src/util.c:WriteData"]}
{"id": "C76", "title": "Normalised unequal time and phonon data are means over the samples", "statement": "After any list of samples the normalised unequal time and phonon data are the arithmetic means over the samples of sign times estimate, together with the mean sign and the number of samples; the series iteration_X_avg and iteration_X0 contain the value of every single sample at its own place and are not normalised.", "quantifier": "all lists of samples (for phonons: up to the allocated number), all lattices with non-negative shift", "why_tests_cant": "all numbers of samples", "anchors": ["src/measurement.c:NormalizeUnequalTimeMeasurementData", "src/measurement.c:NormalizePhononData", "src/measurement.c:AccumulatePhononData"]}
{"id": "C77", "title": "Runs with phonons leave the distribution of the configurations invariant", "statement": "If field and phonon coordinates are distributed with density |det(1+F_up) det(1+F_down)| exp(-dt E) (E the energy of the phonon paths) and the random numbers are ideal, then field and phonon coordinates at the end of DQMCPhononIteration have the same distribution and are independent of the final state of the source.", "quantifier": "all systems, all phonon parameters, all numbers of slices at least two, all block lengths dividing it, all numbers of iterations, every stop signal; uncoupled phonon coordinates arbitrarily distributed", "why_tests_cant": "statement on distributions over a continuous configuration space", "anchors": ["src/monte_carlo.c:DQMCPhononIteration", "src/monte_carlo.c:PhononBlockUpdates", "src/monte_carlo.c:DQMCPhononIteration"]}
{"id": "C78", "title": "Expected accumulated data of a run with phonons", "statement": "The integral over initial configurations and random numbers of every accumulated quantity is the number of measurements times its integral with the weights.", "quantifier": "all systems with at least two slices, all quantities with an integrable contribution per measurement, all numbers of iterations, every stop signal", "why_tests_cant": "integrals over a continuous configuration space", "anchors": ["src/monte_carlo.c:DQMCPhononIteration", "src/monte_carlo.c:DQMCPhononIteration"]}
{"id": "C79", "title": "Runs with phonons are defined with probability one", "statement": "A configuration of weight zero (infinite Green's function, division by zero) is met with probability zero: neither the initial configuration nor any configuration proposed by a block or flip update has weight zero, except on a null set.", "quantifier": "all systems with at least two slices, ideal random numbers, initial configuration distributed according to the weights", "why_tests_cant": "events of probability zero", "anchors": ["src/monte_carlo.c:PhononBlockUpdates", "src/monte_carlo.c:DQMCPhononIteration"]}
{"id": "C80", "title": "Distribution of the initial configuration", "statement": "With ideal random numbers all initial Hubbard-Stratonovich fields are equally likely; the initial phonon coordinates are independent of the field and of each other, zero for uncoupled orbitals and uniform in an interval of the local box width around zero otherwise; the state of the source left behind is independent of all of them.", "quantifier": "all numbers of sites and slices, all phonon parameters", "why_tests_cant": "statement on distributions", "anchors": ["src/main.c:main"]}
{"id": "C81", "title": "Runs with phonons from scratch are defined with probability one", "statement": "If every orbital is coupled to its phonon, the box width is not zero and there are at least two slices, then a run from scratch with ideal random numbers never meets a configuration of weight zero, except with probability zero.", "quantifier": "all accepted parameters within the guards with phonons on all orbitals and at least two slices", "why_tests_cant": "events of probability zero", "anchors": ["src/main.c:main", "src/monte_carlo.c:DQMCPhononIteration"]}
{"id": "C82", "title": "Expected results of a run with phonons are those of the Hubbard-Holstein model", "statement": "If the initial configuration is distributed according to the weights, then with probability one the run is defined, and the quotients of the expected accumulated entries and of the expected sum of signs are the expectation values of the corresponding operators in the discretised path integral of the Hubbard-Holstein model: densities, double occupancies, pair correlations, unequal time correlations, and the averages, squares and energies of the phonon coordinates.", "quantifier": "all accepted parameters with phonons, nonzero couplings and frequencies, positive time step and at least two slices, all stop signals, all iteration numbers, every ideal source of random numbers", "why_tests_cant": "expectations over a continuous configuration space and all random numbers", "anchors": ["src/monte_carlo.c:DQMCPhononIteration", "src/measurement.c:AccumulateMeasurement", "src/measurement.c:AccumulateUnequalTimeMeasurement", "src/measurement.c:AccumulatePhononData"]}
{"id": "C83", "title": "The program is the Metropolis method", "statement": "A program which starts without a checkpoint and ends with a code that is not negative has read from its parameter file the parameters which the text describes, and its result files contain the sums (divided by the number of samples if all iterations were done) of sign times estimate over the configurations which the plain Metropolis method visits with the same random numbers. That method is described by the weight of a configuration (the product of two determinants and, with phonons, the exponential of the phonon action), the order of the updates and the times of the measurements only: no stored products, wrapped or updated Green's functions, and no other internal state of the program has an influence. The counters of accepted updates, the field, the state of the source of random numbers and the exit code are those of the method as well.", "quantifier": "all parameter files with short lines, all parameters within the guards (with phonons: at least two slices), all stop signals, all seeds, with and without phonons", "why_tests_cant": "relates the whole program to an independent description for every input; the quantities are exact real numbers", "anchors": ["src/main.c:main", "src/monte_carlo.c:DQMCSimulation", "src/monte_carlo.c:DQMCIteration", "src/monte_carlo.c:DQMCPhononIteration", "src/measurement.c:AccumulateMeasurement", "src/param_parser.c:ParseParameterFile"]}
{"id": "C84", "title": "Site resolved equal time measurements are Wick contractions", "statement": "In the version of the program without translational averages (measurement_full.c) one call of AccumulateMeasurement never leaves its arrays and adds, for every site, pair of sites, or orbital and pair of cells, the sign of the sample times the expectation value given by Wick's theorem of the density, double occupancy, density and spin correlation, and pairing operators; the Green's functions themselves are added as well, and the sample and its sign are counted.", "quantifier": "all lattice sizes, numbers of orbitals, Green's functions, signs and accumulated data", "why_tests_cant": "all real matrices and all index combinations", "anchors": ["src/measurement_full.c:AccumulateMeasurement", "src/measurement_full.c:AllocateMeasurementData"]}
{"id": "C85", "title": "Site resolved unequal time measurements are Wick contractions", "statement": "The same for AccumulateUnequalTimeMeasurement of measurement_full.c and every time difference: density and spin correlations of every pair of sites, pairing and Raman correlations of every orbital and pair of cells, and the three kinds of Green's functions (the B1g Raman correlations if not exactly one side of the lattice has length one).", "quantifier": "all lattice sizes, numbers of orbitals and slices, Green's functions which agree at time difference zero, signs and accumulated data", "why_tests_cant": "all real matrices and all index combinations", "anchors": ["src/measurement_full.c:AccumulateUnequalTimeMeasurement", "src/measurement_full.c:AllocateUnequalTimeMeasurementData"]}
{"id": "C86", "title": "Averaged measurements are averages of the site resolved ones", "statement": "For every sequence of samples the two versions of the program (measurement.c and measurement_full.c) count the same samples and signs, and every entry of the data of measurement.c is the average over all translations of the corresponding entries of measurement_full.c, before and after the normalisation, for equal and unequal times; the phonon data which both versions have are equal.", "quantifier": "all lattice sizes with any boundary shift, numbers of orbitals and slices, all sequences of samples", "why_tests_cant": "relates two programs for all inputs", "anchors": ["src/measurement.c:AccumulateMeasurement", "src/measurement_full.c:AccumulateMeasurement", "src/measurement.c:AccumulateUnequalTimeMeasurement", "src/measurement_full.c:AccumulateUnequalTimeMeasurement", "src/measurement.c:AccumulatePhononData", "src/measurement_full.c:AccumulatePhononData", "src/measurement_full.c:NormalizeMeasurementData", "src/measurement_full.c:NormalizeUnequalTimeMeasurementData", "src/measurement_full.c:NormalizePhononData"]}
{"id": "C87", "title": "Both versions report the same density", "statement": "The total density per cell printed at the end of a run is the same for both versions of the program.", "quantifier": "all sequences of samples with a nonzero sum of signs", "why_tests_cant": "needs samples of negative sign, which do not occur in the test data", "anchors": ["src/measurement.c:PrintMeasurementDataSummary", "src/measurement_full.c:PrintMeasurementDataSummary"]}
{"id": "C88", "title": "Site resolved data survive saving and loading", "statement": "Data of measurement_full.c written by SaveMeasurementData and SaveUnequalTimeMeasurementData without a fault are restored exactly by the corresponding loaders, whatever files existed before and whatever the memory contained.", "quantifier": "all data with less than 2^31 samples, all base names, all previous file systems and memory contents", "why_tests_cant": "all bit patterns and sizes", "anchors": ["src/measurement_full.c:SaveMeasurementData", "src/measurement_full.c:LoadMeasurementData", "src/measurement_full.c:SaveUnequalTimeMeasurementData", "src/measurement_full.c:LoadUnequalTimeMeasurementData"]}
{"id": "C89", "title": "Every field can be reached", "statement": "Starting from any field, a sufficiently long simulation without phonons reaches any other field with positive probability.", "quantifier": "all initial fields and target fields, all numbers of iterations, all sequences of random numbers", "why_tests_cant": "a statement about probabilities of all runs", "anchors": ["src/monte_carlo.c:DQMCIteration", "src/monte_carlo.c:DQMCSimulation"]}
{"id": "C90", "title": "Results of long runs converge to the expectation values", "statement": "With an ideal source of random numbers and without phonons, the quotients of the accumulated measurements and the accumulated sign converge in probability to the thermal expectation values of the Hubbard model (with discrete time) as the number of iterations grows, from any initial field and from the random one, if reversing an entry of the field changes the weight wherever the interaction does not vanish.", "quantifier": "all accepted parameters within the guards, all initial fields, all measured entries, all tolerances, all numbers of iterations", "why_tests_cant": "a limit of probabilities", "anchors": ["src/monte_carlo.c:DQMCSimulation", "src/monte_carlo.c:DQMCIteration", "src/measurement.c:AccumulateMeasurement", "src/measurement.c:AccumulateUnequalTimeMeasurement", "src/main.c:main"]}
{"id": "C91", "title": "No overflow of int and no access outside of an array exactly if the sizes fit", "statement": "For validated parameters (with a shift that is not negative), every subscript, leading dimension, count and allocation size that the program computes in 32-bit int arithmetic is free of overflow and every access lies inside its array, if and only if five inequalities on the numbers of elements hold: N*N, L*N and nequil+nsampl are ints; with measurements at unequal times there are at least two products of time step matrices and N*N*numBprod^2 and N*N*L are ints; with phonons neqlt is positive and nsampl*L and Norb*(nsampl*L/neqlt) are ints.", "quantifier": "all lattice sizes, numbers of orbitals and time slices, all choices of the optional parts, all outcomes of random numbers and branches", "why_tests_cant": "overflow is undefined behaviour that shows up only for sizes that no test can afford, and out-of-bounds accesses may go unnoticed", "anchors": ["src/linalg.c:BlockCyclicInverse", "src/greens_func.c:ComputeUnequalTimeGreensFunction", "src/measurement.c:AllocateUnequalTimeMeasurementData", "src/measurement.c:AccumulateUnequalTimeMeasurement", "src/monte_carlo.c:DQMCIteration", "src/main.c:main", "src/param_parser.c:ValidateSimulationParameters"]}
{"id": "C92", "title": "The lattice Fourier transform gives the plane wave coefficients and its inverse", "statement": "If all MKL calls succeed, the forward transform stores at kx + (Nx/2+1)*ky the coefficient of the plane wave with momentum 2 pi (kx/Nx, ky/Ny) for kx <= Nx/2, all other coefficients are the complex conjugates of stored ones at (Nx-kx, (Ny-ky) mod Ny), the backward transform followed by multiplication with nfac restores the input, and only Ny*(Nx/2+1) respectively Nx*Ny elements are written. If a call fails, the status of the first failing call is returned. With at least two rows, translating the function by cells (with the index maps of the measurements) multiplies the coefficients by the plane wave if and only if pbc_shift is a multiple of Nx.", "quantifier": "all lattice sizes, all real inputs, all outcomes of the library calls", "why_tests_cant": "the test checks a 4x6 and a 5x6 lattice with one input vector each, without boundary shift", "anchors": ["src/lattice_fourier.c:CreateLatticeFourierDescriptor", "include/lattice_fourier.h:FourierTransformLatticeForward", "include/lattice_fourier.h:FourierTransformLatticeBackward"]}
{"id": "C93", "title": "Results tend to the expectation values in the Hubbard model as the number of time slices grows", "statement": "For fixed lattice, hopping, interaction and inverse temperature beta there are constants C and L0 such that for all L >= L0 the expectation values which the program estimates with L time slices of length beta/L differ from the expectation values of the same operators in the state exp(-beta H)/Z of the Hubbard Hamiltonian H (at imaginary times l*beta/L for unequal times, uniformly in l) by at most C/L, and by at most C/L^2 for densities, double occupancy and density and spin correlations at equal times. Results of long runs with an ideal source converge to values with these distances.", "quantifier": "all parameters with a symmetric hopping matrix (all accepted ones), all beta, all L >= L0, all entries of the arrays", "why_tests_cant": "the tests have no exact diagonalisation of an interacting system to compare with and a limit cannot be tested", "anchors": ["src/time_flow.c:ComputeTimeStepMatrix", "src/monte_carlo.c:DQMCSimulation", "src/measurement.c:AccumulateMeasurement", "src/measurement.c:AccumulateUnequalTimeMeasurement", "src/stratonovich.c:FillStratonovichParameters"]}
{"id": "C94", "title": "No double release, no use after release, no use of unallocated memory", "statement": "Every run of main releases every block of memory and every file at most once and accesses only live ones, whatever the parameter file, the random numbers, the clock, the signals, the stored checkpoint and the failures of library functions are, except in these cases: a parameter with more than 1024 values, phonons with neqlt = 0, and a signal after the log file has been closed (the handlers then write to the closed file). In the first and the last case a run that gets there is undefined. The profiler (start, any calls with any names, stop) leaves memory as it was.", "quantifier": "all parameter files, all sequences of decisions, all patterns of failures, all numbers of iterations", "why_tests_cant": "the tests run functions one at a time on fixed inputs and without failures; a leak detector sees single runs", "anchors": ["src/main.c:main", "src/monte_carlo.c:DQMCSimulation", "src/monte_carlo.c:DQMCPhononIteration", "src/param_parser.c:ParseParameterFile", "src/hash_table.c:DeleteHashTable", "src/profiler.c:Profile_Stop", "src/dupio.c:duprintf"]}
{"id": "C95", "title": "Everything is released at the end of a run", "statement": "A run that reaches the end of main without a failure of a library function has released every block of memory and closed every file.", "quantifier": "all parameter files, all sequences of decisions, all numbers of iterations", "why_tests_cant": "the tests do not count blocks, and do not run main", "anchors": ["src/main.c:main", "src/measurement.c:AccumulatePhononData", "src/linalg.c:MatrixExp", "src/linalg.c:BlockCyclicInverse", "src/util.c:ReadData", "src/param_parser.c:ParseParameterFile"]}
{"id": "C96", "title": "At half filling the results are symmetric under exchange of particles and holes", "statement": "If the sites have two colours, linear in the coordinates modulo 2 plus a colour of the orbital and compatible with the periodic boundary, such that all bonds join sites of different colours (for instance the checkerboard on a lattice with even extents and shift, or the hexagonal lattice), the site energies equal the chemical potential and there are no phonons, then in every sample, at every time slice and for every field, the Green's functions satisfy Gd(i,j) = delta_ij - eta_i eta_j Gu(j,i); hence the arrays which a run writes satisfy, exactly and not only on average: the sign is the number of samples, density up plus density down is the sign, dd is the correlation of the holes of spin up, and the arrays of Green's functions are related as above.", "quantifier": "all accepted parameters at half filling, all random numbers, numbers of iterations and signals", "why_tests_cant": "the tests compare a few sums of arrays with stored values and do not look at relations between arrays", "anchors": ["src/greens_func.c:GreenConstruct", "src/measurement.c:AccumulateMeasurement", "src/kinetic.c:RectangularKineticExponential", "src/monte_carlo.c:DQMCSimulation"]}
{"id": "C97", "title": "Without interaction a run gives the exact expectation values", "statement": "If U = 0 and there are no phonons, every run is defined, and the equal time arrays which it writes are, for any random numbers, exactly the number of measurements (or one after normalisation) times the expectation values of the corresponding operators in the state exp(-beta H)/Z of the kinetic Hamiltonian H with beta = L*dt, without statistical error and without error of the time discretisation.", "quantifier": "all accepted parameters with U = 0 and without phonons, all random numbers, numbers of iterations and signals", "why_tests_cant": "a test compares a run with one set of parameters", "anchors": ["src/monte_carlo.c:DQMCSimulation", "src/measurement.c:AccumulateMeasurement", "src/measurement.c:NormalizeMeasurementData", "src/stratonovich.c:FillStratonovichParameters"]}
{"id": "C98", "title": "Expected results do not depend on the direction of the spin", "statement": "The discrete field couples to the z component of the spin, and in a sample the spin directions differ. The expectation values which the results stand for (expected results of equilibrium runs with and without phonons, limits of long runs, limits for many time slices) are the same for both spins (density, uu and dd, all Green's functions) and for the spin correlations zz and xx, at equal and unequal times.", "quantifier": "all accepted parameters, all entries of the arrays", "why_tests_cant": "statistical noise hides deviations, and the tests do not compare arrays with each other", "anchors": ["src/measurement.c:AccumulateMeasurement", "src/measurement.c:AccumulateUnequalTimeMeasurement", "src/stratonovich.c:FillStratonovichParameters", "src/monte_carlo.c:DQMCSimulation"]}
{"id": "C99", "title": "Every run uses its own files only", "statement": "The name of a file of a run determines the output directory, the seed and the kind of data, and fits into the arrays of 1024 characters whenever the base name has at most 996 bytes. A run of the program changes no file but those of its own directory and seed, whatever goes wrong while it writes or if it dies, and what it does depends on no other file. Hence runs with different directories or seeds can be done in any order, with the same exit codes and the same files at the end.", "quantifier": "all input files, directories, seeds, contents of the disk, signals and write errors", "why_tests_cant": "the clash of names of two runs needs particular directories and seeds", "anchors": ["src/main.c:main", "src/checkpoint.c:SaveCheckpoint", "src/measurement.c:SaveMeasurementData", "src/measurement.c:SaveUnequalTimeMeasurementData", "src/util.c:WriteData"]}
{"id": "C100", "title": "Sixteen consecutive random words are free and determine all others", "statement": "For each value of the counter, the map from the sixteen words of the state to sixteen consecutive outputs of Random_GetUint, starting at any time, is a bijection: every sequence of sixteen words is produced by exactly one state, so that for a uniformly distributed state sixteen consecutive outputs are independent and uniform, and they determine the state and all later outputs.", "quantifier": "all states, all starting times", "why_tests_cant": "there are 2^1024 states", "anchors": ["src/random.c:Random_GetUint"]}
{"id": "C101", "title": "Random_GetNormal has the standard normal distribution", "statement": "For uniform real numbers in (0, 1] the transformation of Random_GetNormal gives exactly the normal distribution with mean 0 and variance 1. Over all states of the generator, with uniform numbers rounded to double precision and the constant M_2PI of the source, the fraction of states for which the result is at most x differs from the normal distribution function at x by at most 2^-49, for every x; the same holds with 2^-48 for the states which the generator passes through within its period, from any state other than zero.", "quantifier": "all real x, all values of the counter, all roundings to nearest", "why_tests_cant": "a sample of any feasible size cannot resolve such differences, nor the tails", "anchors": ["src/random.c:Random_GetNormal", "src/random.c:Random_GetUniform"]}
{"id": "C102", "title": "Numbers in parameter files; which parameters a file can give", "statement": "Words of the form [sign] digits, and decimal numbers with optional point and exponent, are read as the numbers which they denote (rounded to nearest); a word which does not begin like a number is silently read as zero, and an integer in the notation 1e4 as its leading digits. Consequently every set of parameters of ints and finite doubles, with at most 341 non-zero entries in each list of hoppings and at most 1024 orbitals, is given by some file, exactly; and no accepted file gives parameters outside these limits.", "quantifier": "all words, all files, all parameters", "why_tests_cant": "the tests read one file", "anchors": ["src/param_parser.c:ParseParameterFile", "src/param_parser.c:ReadHoppings", "src/param_parser.c:ReadList"]}
{"id": "C103", "title": "The sample inputs of the repository are accepted and mean what they say", "statement": "Each of the four files bin/sample_input_*.txt, and the first two with the lines for phonons enabled as their comments suggest, is accepted by the parser and the validation, and gives exactly the parameters written in it, every decimal number rounded to nearest; with these parameters no array is exceeded and no int overflows, and a run that ends writes the averages of the Metropolis method. The files for one band and for the hexagonal lattice describe half filled systems, so that the results which the program writes for them satisfy C96: the sign is one in all samples and the densities of the spins add up to one.", "quantifier": "all machines with the roundings of the standard, all times (which seed the generator), all random numbers, all signals", "why_tests_cant": "the samples are not part of the tests, and a run shows one sequence of random numbers", "anchors": ["bin/sample_input_1band.txt", "bin/sample_input_3band.txt", "bin/sample_input_hexagonal.txt", "bin/sample_input_kagome.txt", "src/param_parser.c:ParseParameterFile", "src/main.c:main"]}
{"id": "C104", "title": "The conditions on the weights hold for almost all time steps", "statement": "For accepted parameters without phonons and with U >= 0: in every bounded interval there are finitely many lengths dt of the time step for which some configuration of the field has weight zero, and for all others every run from scratch ends without an undefined operation. If the number of time slices is even there are, likewise, finitely many dt for which reversing an entry of the field at a site with interaction can leave the weight unchanged. Hence for all other dt the results of long runs with an ideal source converge to the expectation values in the Hubbard model, and for all but countably many temperatures the results for L time slices tend to the expectation values in continuous time as L grows.", "quantifier": "all parameters without phonons; all but finitely many dt in each bounded interval", "why_tests_cant": "the number of configurations is exponential in the size, and exceptional time steps form a null set", "anchors": ["src/monte_carlo.c:DQMCIteration", "src/greens_func.c:GreenConstruct", "src/stratonovich.c:FillStratonovichParameters", "src/main.c:main"]}
{"id": "C105", "title": "Long runs with phonons converge to the expectation values in the Hubbard-Holstein model", "statement": "For accepted parameters within the guards, with phonons coupled to all orbitals with nonzero frequencies, at least two time slices, an even number of them unless all U are zero, boxes of nonzero width for the local updates and at least one such update per sweep: if the generator is replaced by an ideal source, then runs from scratch (main draws the field and the phonon coordinates), and more generally runs from any random configuration which avoids sets of configurations without weight, are defined with probability one for every nsampl, and the quotients of the entries of the equal time, phonon and unequal time arrays and of the sums of the signs converge in probability to the expectation values in the Hubbard-Holstein model with time step dt, as nsampl grows.", "quantifier": "all such parameters, all ideal sources, all lattice sizes and numbers of slices", "why_tests_cant": "a limit of infinitely many iterations over a continuous configuration space; tests run few sweeps of a fixed seed", "anchors": ["src/monte_carlo.c:DQMCPhononIteration", "src/monte_carlo.c:PhononBlockUpdates", "src/monte_carlo.c:DQMCSimulation", "src/measurement.c", "src/main.c:main"]}
{"id": "C106", "title": "The partition function of the Hubbard-Holstein model is positive", "statement": "For dt > 0 the path integral of the Hubbard-Holstein model without any operators, i.e. the normalisation of the expectation values in C78 and C105 and, up to a positive factor, the average sign of the simulation, is positive, although the weights of single configurations have both signs. So the expected sum of the signs by which the program divides is not zero.", "quantifier": "all accepted parameters within the guards, all numbers of slices, coupled oscillators with nonzero frequencies", "why_tests_cant": "an integral over all configurations, whose terms have both signs", "anchors": ["src/monte_carlo.c:DQMCPhononIteration", "src/measurement.c:NormalizeMeasurementData", "src/kinetic.c:RectangularKineticExponential"]}
{"id": "C107", "title": "The acceptance counters are ints", "statement": "The six counters of phonon updates are of type int. A simulation with checked counters is the same as one that counts without bound if the final counters are ints, and undefined otherwise. After n iterations of a process the counters are at most n*L*n_local_updates (local) and n*n_block_updates (block, flip), with equality for the attempts if all orbitals are coupled, whatever the random numbers; so there is no overflow if (nequil+nsampl)*L*n_local_updates and (nequil+nsampl)*n_block_updates are ints, and with all orbitals coupled this is exact. Parameters accepted by ValidateSimulationParameters whose array sizes all fit (C91) may violate it.", "quantifier": "all parameters, all random numbers, all points of stopping", "why_tests_cant": "an overflow needs more than 2^31 updates", "anchors": ["src/monte_carlo.c:DQMCPhononIteration", "src/monte_carlo.c:PhononBlockUpdates", "src/monte_carlo.c:PhononFlipUpdates", "src/monte_carlo.c:DQMCSimulation", "src/param_parser.c:ValidateSimulationParameters"]}
{"id": "C108", "title": "The results are averages over probabilities of the occupation numbers", "statement": "There are probabilities w of the occupation numbers of all sites and spins (non-negative, summing to one), the same for all measurements, such that the limits of the measured densities, double occupancies and density and spin correlations of long runs are the averages of these functions of occupation numbers with respect to w, also with a sign problem, for every number of time slices, and with phonons. Hence the limits satisfy 0 <= n_up n_dn <= n_up, n_dn, n_up + n_dn - n_up n_dn <= 1, the local moment is zz(0) = n_up + n_dn - 2 n_up n_dn, correlations of spins are at most one in absolute value and no structure factor of uu, dd, zz, xx is negative, for any real amplitudes on orbitals and cells.", "quantifier": "all admissible parameters, all lattices and shifts, all numbers of time slices, all lawful random number generators with ideal distribution", "why_tests_cant": "single samples violate the inequalities; the statement is about limits of infinitely long runs", "anchors": ["src/measurement.c:AccumulateMeasurement", "src/monte_carlo.c:DQMCSimulation", "src/monte_carlo.c:DQMCIteration", "src/monte_carlo.c:DQMCPhononIteration"]}
{"id": "C109", "title": "The averages over the cells are the expectation values at every single cell", "statement": "The expectation values of the Hubbard(-Holstein) model on the lattice with twisted boundary condition do not change under translations. So the results, which are averages over all cells, converge to the expectation values at any single cell: densities, double occupancies, density, spin and s-wave pair correlations for every offset, and entries of the Green's function depend on the offset only, at equal and unequal times, with and without phonons and in the Trotter limit. For d-wave and extended s-wave pairs, currents and Raman operators this is shown if the twist is a multiple of Nx (their neighbours ignore the twist, C14).", "quantifier": "all admissible parameters, all lattice sizes, orbitals, hoppings and twists, all offsets and cells, all numbers of time slices", "why_tests_cant": "a single sample is not translation invariant; the statement is about limits and about all hoppings at once", "anchors": ["src/measurement.c:AccumulateMeasurement", "src/measurement.c:AccumulateUnequalTimeMeasurement", "src/kinetic.c:RectangularKineticExponential", "src/measurement.c:ConstructLatticeCoordinateSumMap"]}
{"id": "C110", "title": "The program built with measurement_full.c runs the same simulation", "statement": "Both builds - with measurement.c and with measurement_full.c - go through the same Markov chain with the same random numbers: whenever the first is defined, so is the second, with the same exit code, the same checkpoint files, acceptance counters and iteration, also across any number of interruptions and restarts. The arrays they write differ only in layout: each entry of the first is the average over the cells of the corresponding entries of the second (for b1g this is the average the code of measurement.c is meant to compute), before and after normalisation and in the files, and reloading a checkpoint keeps this relation.", "quantifier": "all inputs, all admissible parameters with nonnegative twist, all machines satisfying the model's assumptions, all file system states, any number of restarts", "why_tests_cant": "concerns two builds, all parameter files, seeds and points of interruption at once", "anchors": ["src/measurement_full.c", "src/measurement.c", "src/main.c:main", "src/checkpoint.c"]}
{"id": "C111", "title": "Long runs with measurement_full.c converge at every pair of sites", "statement": "In the build with measurement_full.c, with ideal random numbers, every entry of the site-resolved arrays divided by the sum of the signs converges in probability to the expectation value of the Hubbard model at just these sites (cells, time difference): densities, double occupancies, density, spin and pair correlations of every two sites or cells, Green's functions, at equal and unequal times; with phonons to the values of the Hubbard-Holstein model, and the averages of X and X^2 too.", "quantifier": "all admissible parameters within the guards with nonvanishing responsive weights (no phonons) or movable phonons, all initial fields or runs from scratch, all sites and cells", "why_tests_cant": "limits over random runs; no exact reference values for all lattices", "anchors": ["src/measurement_full.c:AccumulateMeasurement", "src/measurement_full.c:AccumulateUnequalTimeMeasurement", "src/measurement_full.c:AccumulatePhononData", "src/monte_carlo.c:DQMCSimulation"]}
{"id": "C112", "title": "The Hubbard-Stratonovich tables survive rounding", "statement": "If every arithmetic operation and every call of exp, expm1 and sqrt has relative error at most u, FillStratonovichParameters takes no square root of a negative number when dt*U >= 0, and expVu, expVd and delta[0] have relative error at most (11 + 3 dt U) u for all couplings, arbitrarily small ones included; delta[1] has absolute error at most (14 + 3 dt U) u. delta[1] has no relative accuracy: it is stored as 0 when delta[0] is below u. Without expm1 the whole table would be lost for small couplings.", "quantifier": "all couplings and time steps with dt*U >= 0 and dt*U*u <= 1/100, all numbers of orbitals, all arithmetics with relative error u <= 1/200", "why_tests_cant": "all roundings of all library implementations; tests compare a few values on one machine", "anchors": ["src/stratonovich.c:FillStratonovichParameters"]}
{"id": "C113", "title": "Rounding errors do not accumulate in the results of long runs", "statement": "Replace the numbers of the program by those of any arithmetic and keep only its control flow: the random order of the sites, the comparison of a random number with the computed factor |du*dd|, and the changes of the field. If every computed factor differs by at most eps from the quotient of the exact weights of the current field and every measurement adds the exact contribution of the current field up to eta, then after n iterations every recorded quantity divided by the recorded sign differs from the expectation value in the Hubbard model by less than K(eps+eta)+delta, except with probability K/(n delta^2). K does not depend on the arithmetic, on eps, eta, n or the initial field: the errors of the decisions bias the results proportionally to their size, but do not add up over the run. With exact operations the loop is the simulation of the other claims.", "quantifier": "all arithmetics, all numbers of iterations, all initial fields, all lattices and parameters of runs without phonons whose weights do not vanish and respond to every entry with interaction; ideal random source", "why_tests_cant": "a statement about all roundings and unbounded runs; a wrong decision at one site changes the whole rest of the trajectory, so that a run cannot be compared with an exact run", "anchors": ["src/monte_carlo.c:DQMCIteration", "src/monte_carlo.c:DQMCSimulation"]}
{"id": "C114", "title": "The program in rounded arithmetic converges to the thermal expectation values", "statement": "Take the simulation without phonons with every floating point operation of time_flow.c, greens_func.c, monte_carlo.c and of the equal time measurement replaced by an operation with an error of order u, every BLAS and LAPACK call by one with a small backward error, and tables with errors of order u. For every eps there are u0 and K, depending on the parameters only, such that every run of n iterations after equilibration with (nequil+n)*u <= u0 completes, and every recorded equal time quantity divided by the recorded sign differs from its thermal expectation value in the Hubbard model by less than eps, except with probability K/n. In particular the errors of wrapping and updating are removed by the recomputation every nwraps slices and never reach the decisions of the Metropolis algorithm by more than a small amount, along every possible path of the field.", "quantifier": "all arithmetics meeting the error contracts, all numbers of iterations with (nequil+n)u <= u0, all initial fields, all lattices and parameters without phonons with nwraps <= L, 0 < neqlt <= L, without unequal time measurement, whose weights do not vanish and respond to every entry with interaction; ideal random source", "why_tests_cant": "a statement about all roundings, all fields and unbounded runs; a wrong decision at one site changes the whole rest of the trajectory, so that a run cannot be compared with an exact run", "anchors": ["src/monte_carlo.c:DQMCIteration", "src/greens_func.c:GreenConstruct", "src/greens_func.c:GreenShermanMorrisonUpdate", "src/greens_func.c:GreenTimeSliceWrap", "src/time_flow.c:TimeFlowMap", "src/measurement.c:AccumulateMeasurement"]}
{"id": "C115", "title": "Rounding from the parameters to the results", "statement": "Let the tables of exponentials be computed in rounded arithmetic as well: the hopping matrix by repeated subtraction, its exponentials by LAPACKE_dsyev, exp and dgemm, and the Hubbard-Stratonovich factors by the operations of FillStratonovichParameters. If every scalar operation and library function has a relative error of at most u and every BLAS and LAPACK call a backward error of order u, the tables are defined and differ by at most C*u from the exact exponentials exp(-dt K), exp(dt K) and exp(+-lambda), where C depends on the parameters only. Consequently a run of the program without phonons, rounded from the parameters to the results, completes and gives the thermal expectation values of the Hubbard model up to eps except with probability K/n, if (nequil+n)*u <= u0.", "quantifier": "all arithmetics meeting the error contracts, all u below a bound depending on the parameters, all numbers of iterations with (nequil+n)u <= u0, all initial fields, all parameters as in C114", "why_tests_cant": "a statement about all roundings and all eigenvectors an eigensolver may return (degenerate eigenvalues make them discontinuous functions of the matrix)", "anchors": ["src/kinetic.c:RectangularKineticExponential", "src/linalg.c:MatrixExp", "src/stratonovich.c:FillStratonovichParameters", "src/monte_carlo.c:DQMCSimulation"]}
{"id": "C116", "title": "The progress signal reports the true counts, and its time estimates are exact for uniform iterations; the time limit is respected", "statement": "During iteration i of a run (new or resumed), SIGUSR1 prints the number of completed iterations of the phase the simulation is in, the right totals, and as the remaining time the mean duration of the completed iterations of the same phase in this run times the number of iterations that remain, minus the time since the last iteration ended; if all iterations take the same time this is exactly the time that remains. No iteration begins at or after max_time seconds from the start, and without a signal the loop ends early only for that reason.", "quantifier": "all nequil, nsampl >= 1, starting iterations, clock values and signal times (outside the short interval between UpdateProgress and the increment of the iteration); all time limits", "why_tests_cant": "depends on the wall clock, on the iteration at which a run resumes and on the time of arrival of a signal", "anchors": ["src/progress.c:PrintProgress", "src/progress.c:UpdateProgress", "src/progress.c:InitProgressTracking", "src/monte_carlo.c:DQMCSimulation"]}
{"id": "C117", "title": "The program with unequal time measurements in rounded arithmetic converges to the thermal expectation values", "statement": "C114 extended to runs with unequal time measurements: take the simulation without phonons with every floating point operation, including those of BlockCyclicInverse, ComputeUnequalTimeGreensFunction and AccumulateUnequalTimeMeasurement, replaced by one with an error of order u and every BLAS and LAPACK call by one with a small backward error. For every eps there are u0 and K, depending on the parameters only, such that every run of n iterations after equilibration with (nequil+n)*u <= u0 completes, and every recorded equal time and unequal time quantity, for every time difference, divided by its recorded sign differs from its thermal expectation value in the Hubbard model by less than eps, except with probability K/n.", "quantifier": "all arithmetics meeting the error contracts, all numbers of iterations with (nequil+n)u <= u0, all initial fields, all lattices and parameters without phonons with nwraps <= L and 2 prodBlen <= L whose weights do not vanish and respond to every entry with interaction; any frequencies of the two kinds of measurement; ideal random source", "why_tests_cant": "a statement about all roundings, all fields and unbounded runs; the QR factors of the block cyclic matrix do not depend continuously on it, so that intermediate results of two arithmetics cannot be compared", "anchors": ["src/linalg.c:BlockCyclicInverse", "src/greens_func.c:ComputeUnequalTimeGreensFunction", "src/measurement.c:AccumulateUnequalTimeMeasurement", "src/monte_carlo.c:DQMCSimulation"]}
{"id": "C118", "title": "Expected unequal time results as functions of time", "statement": "The expected results (and the limits of long runs) of the unequal time measurements at the times l and L-l agree, 0 < l < L: nn, zz, xx at displacement d of the orbitals o, p equal those at L-l, displacement -d, orbitals p, o; jx, jy, b1g, b2g at d equal those at L-l and -d; Gtau0 at l equals minus G0tau at L-l with the same displacement; Geqlt does not depend on time. Without phonons, for any amplitudes of the orbitals and cells, the structure factors of densities, spins and pairs on single sites are not negative at any time, the square at time l is at most the product of those at l-1 and l+1 (for densities and spins periodically continued), and those of densities and spins are symmetric and decrease up to the middle.", "quantifier": "all lattices, parameters without vanishing weights, numbers of time slices, displacements, orbitals, amplitudes; the relations between l and L-l also with phonons; ideal random source", "why_tests_cant": "single samples violate the relations; they hold for the exact expectation values at finite dt only, for every number of slices", "anchors": ["src/measurement.c:AccumulateUnequalTimeMeasurement", "src/monte_carlo.c:DQMCSimulation", "src/greens_func.c:ComputeUnequalTimeGreensFunction"]}
{"id": "C119", "title": "Messages on the standard output and in the log file", "statement": "Every message printed by duprintf after the log file has been opened is appended to the log file, earlier ones appear on the standard output only, and what previous runs have written to the log file is kept. If no signal handler prints between the two writes of a call, the log file receives an exact copy of the standard output from the opening on. In general, with handlers which print between the two writes, nested to any depth, the standard output contains the messages in the order in which the calls begin, the log file the same messages in the order in which the calls end; the messages of the interrupted program itself are in program order in both. The copy is not exact in general.", "quantifier": "all messages, numbers of calls, runs and nestings of interrupting handlers", "why_tests_cant": "the arrival of signals between two writes cannot be controlled by tests; all interleavings are covered", "anchors": ["src/dupio.c:duprintf", "src/checkpoint.c:StopSimulation", "src/progress.c:PrintProgress", "src/main.c:main"]}
{"id": "C120", "title": "Textbook BLAS and LAPACK are accurate enough", "statement": "The calls of BLAS and LAPACK may be carried out by the textbook algorithms in floating point arithmetic with relative errors of at most u: matrix products by loops, QR decompositions by Householder reflections (with the sign chosen as in dlarfg), Gaussian elimination with partial pivoting, substitution and inversion of triangular matrices. For each size there is a K such that these algorithms meet the accuracy requirements of C114 and C117 with any accuracy e satisfying e^K >= K u; e tends to zero with u. Hence the results of runs without phonons with these algorithms, in rounded arithmetic from beginning to end, come as close as desired to the expectation values in the Hubbard model, with high probability, if (nequil+n)^K u is small and the number n of sweeps is large.", "quantifier": "all matrix sizes, entries, operations with relative errors of at most u, column permutations of dgeqp3, parameters without phonons, fields, numbers of sweeps", "why_tests_cant": "tests compare a few matrices with one library; the errors are bounded for all matrices and all ways of rounding", "anchors": ["src/greens_func.c:GreenConstruct", "src/greens_func.c:GreenShermanMorrisonUpdate", "src/greens_func.c:GreenTimeSliceWrap", "src/linalg.c:BlockCyclicQR", "src/linalg.c:BlockCyclicTriangularInverse", "src/linalg.c:BlockCyclicInverseRotation", "src/main.c:main"]}
{"id": "C121", "title": "The rounded program with textbook algorithms, from parameters to results", "statement": "Run the whole program without phonons in floating point arithmetic with relative errors of at most u: the tables of exponentials, the Green's functions, the decisions of the Metropolis method and the equal and unequal time measurements are all computed with rounding errors, and the calls of BLAS and LAPACK are the textbook algorithms of C120, except for dsyev, of which backward stability is assumed. The tables are defined, the run completes without an undefined operation, and each result differs from the expectation value in the Hubbard model by less than eps except with probability C/n, if (nequil+n)^K u <= u0. This includes the unequal time results, which C115 does not.", "quantifier": "all parameters without phonons, initial fields, numbers of sweeps, arithmetics with relative errors of at most u, column choices of dgeqp3", "why_tests_cant": "all roundings, all fields and the probability of all random sequences", "anchors": ["src/main.c:main", "src/kinetic.c:RectangularKineticExponential", "src/linalg.c:MatrixExp", "src/stratonovich.c:FillStratonovichParameters", "src/monte_carlo.c:DQMCSimulation", "src/measurement.c:AccumulateUnequalTimeMeasurement"]}
{"id": "C122", "title": "At half filling spins are antiferromagnetic and charges are correlated like pairs", "statement": "In a half filled system on two sublattices without phonons, in every single run from scratch, for every seed and interruption: the correlations of the transverse spin components in the files are not negative for two sites of the same sublattice and not positive for two sites of different sublattices, at equal and at unequal times; the double occupancy is at most one quarter; the density correlations minus one are twice the on-site pair correlations up to the staggered sign; and the Green's function of one spin at any imaginary time is that of the holes of the other spin. The z components need not have these signs in a single run, but the values to which long runs converge have them, and so do the expectation values in the Hubbard model with any number of time slices and, in the limit of many time slices, at any temperature and imaginary time.", "quantifier": "all lattices with two sublattices, U >= 0, numbers of time slices, seeds, interruptions, temperatures, imaginary times", "why_tests_cant": "all fields and seeds; expectation values in a space of dimension 4^N; the limit of many time slices", "anchors": ["src/measurement.c:AccumulateMeasurement", "src/measurement.c:AccumulateUnequalTimeMeasurement", "src/greens_func.c:ComputeUnequalTimeGreensFunction", "src/monte_carlo.c:DQMCSimulation"]}
{"id": "C123", "title": "Rounded runs with phonons follow the exact run", "statement": "With phonons, from the parameters to the numbers in memory at the end: if the generator is replaced by an ideal source, then with probability one the run from scratch in exact arithmetic is defined, and for every tolerance there is a bound on the relative errors of the scalar operations and library functions below which every run in rounded arithmetic is defined, executes the same number of iterations, takes every decision (single spin flips, local, block and flip updates of the phonons) as the exact run does, ends with the same random number state, Hubbard-Stratonovich field and acceptance counters, and has phonon coordinates and accumulated equal time, unequal time and phonon measurements within the tolerance. This includes the tables of exponentials, the initial phonon field, the decompositions, the determinants and logarithms used by the block updates, and the measurements. BLAS and LAPACK may be any routines with the stated accuracy; in particular the textbook algorithms for everything but dsyev.", "quantifier": "all accepted parameters within the guards with at least two slices and coupled phonons, almost all random number sequences, all tolerances, all arithmetics of sufficient accuracy, all points of interruption", "why_tests_cant": "a statement about all random number sequences outside a null set and all arithmetics; a test sees one of each, and ties of the decisions have probability zero", "anchors": ["src/monte_carlo.c:DQMCSimulation", "src/monte_carlo.c:DQMCPhononIteration", "src/monte_carlo.c:PhononBlockUpdates", "src/monte_carlo.c:PhononFlipUpdates", "src/greens_func.c:GreenConstruct", "src/time_flow.c:ComputePhononTimeStepMatrix", "src/measurement.c:AccumulatePhononData", "src/main.c:main"]}
{"id": "C124", "title": "Long runs with phonons in rounded arithmetic give the expectation values in the Hubbard-Holstein model", "statement": "With phonons, from the parameters to the recorded numbers: let the generator be replaced by an ideal source. For every tolerance eps there is a number of iterations n0 such that for every nsampl = n >= n0 there is an accuracy u0, which depends on the parameters, eps and n only, so that in every arithmetic of accuracy u <= u0 the run from scratch is defined, the recorded sums of the signs are not zero, and every entry of the equal time, phonon and unequal time arrays divided by the sum of the signs differs from the expectation value in the Hubbard-Holstein model with time step dt by at most eps, except with probability eps. The same with the textbook algorithms for BLAS and LAPACK. In exact arithmetic the probability that the sum of the signs vanishes tends to zero.", "quantifier": "all accepted parameters within the guards with coupled phonons (nonzero frequencies, at least two slices, an even number of them unless all U are zero, boxes of nonzero width, at least one local update), all ideal sources, all tolerances, all long runs, all arithmetics accurate enough for the length of the run", "why_tests_cant": "a statement about limits of infinitely long runs over a continuous configuration space and about all arithmetics; a test sees one arithmetic and a short run of one seed", "anchors": ["src/monte_carlo.c:DQMCSimulation", "src/monte_carlo.c:DQMCPhononIteration", "src/monte_carlo.c:PhononBlockUpdates", "src/monte_carlo.c:PhononFlipUpdates", "src/measurement.c:AccumulatePhononData", "src/measurement.c:AccumulateMeasurement", "src/main.c:main"]}
{"id": "C125", "title": "Jacobi's eigenvalue decomposition in rounded arithmetic is accurate enough for the program, so that only the errors of scalar operations remain as a hypothesis", "statement": "Let the call of dsyev be Jacobi's method: m rotations, each of which annihilates the entry of largest magnitude above the diagonal, in an arithmetic with relative errors of at most u. If (1 - 1/N^2)^m <= u and (m+1) u is small, then the computed eigenvectors are close to an orthogonal matrix V such that V diag(w) V^T, with the computed eigenvalues w, is close to the symmetric matrix given by the upper triangle of the input; the bounds grow only polynomially with the entries of the matrix. For all small u there is such a number of rotations. With the algorithms of C120 for the other calls of BLAS and LAPACK, the results of the whole program, without phonons as in C121 and with phonons as in C124, come close to the expectation values; the hypotheses are bounds on the relative errors of +, -, *, /, sqrt, exp, expm1 (and log with phonons) only.", "quantifier": "all matrix sizes, all matrices, all numbers of rotations, all arithmetics with small relative errors; for the runs all accepted parameters within the conditions of C121 and C124", "why_tests_cant": "a backward error bound for an iterative method over all matrices and all arithmetics; LAPACK itself is tested on samples with one arithmetic", "anchors": ["src/linalg.c:59", "src/linalg.c:MatrixExp", "src/kinetic.c:RectangularKineticExponential", "src/monte_carlo.c:DQMCSimulation", "src/main.c:main"]}
{"id": "C126", "title": "The program with binary floating point numbers: correct rounding to t bits, and a number of bits proportional to the logarithm of the number of sweeps is sufficient", "statement": "Let fl be the rounding of IEEE 754 to a significand of t bits: fl(x) has a significand of t bits, no such number is closer to x, in the case of a tie the significand of fl(x) is even, numbers with t bits are not changed, and the relative error is at most 2^-t. Let every operation +, -, *, /, sqrt, exp, expm1, log of the program be rounded this way, with the algorithms of C120 and C125 (N^2 t rotations) for BLAS and LAPACK. Without phonons: for every tolerance eps there are C and D such that a run with n sweeps with measurements, where the number of all sweeps has at most a bits, and with t >= D (a+1), is defined and gives every result of the equal and unequal time measurements up to eps except with probability C/n. With phonons: for every tolerance and every sufficiently large n there is a t0 such that with t >= t0 bits the results deviate by more than eps from the expectation values with probability at most eps.", "quantifier": "all real numbers, all t >= 1; all accepted parameters within the conditions of C121 and C124, all tolerances, all numbers of sweeps, all numbers of bits which are large enough, all ideal sources", "why_tests_cant": "a test runs with 53 bits, for one seed and a fixed number of sweeps; the dependence of the necessary number of bits on the length of the run cannot be seen", "anchors": ["src/linalg.c", "src/greens_func.c", "src/stratonovich.c", "src/kinetic.c", "src/monte_carlo.c:DQMCSimulation", "src/main.c:main"]}
{"id": "C127", "title": "Matrix products may be summed up in any order, with or without fused multiply-add: the program gives the expectation values nevertheless", "statement": "Let every entry of the matrix products of the program (cblas_dgemm with and without transposition and with accumulation, cblas_dtrmm from both sides) be computed by some expression which adds up the rounded products, each of them once, in any order and with any partial sums, where a product and a partial sum may be added by a fused multiply-add with a single rounding; the expression may be another one for every entry and every call. (a) The error of a sum of n products (and a start value) is at most u 4^(n+1) (n+1) times the bound for the terms. (b) With the algorithms of C120 and C125 for the other calls, the results of the program without phonons come close to the expectation values as in C125, and (c) so do those of the program with phonons. (d) In exact arithmetic, every order gives the exact result.", "quantifier": "all orders of summation, possibly different for every entry and every call; all relative errors which are small enough for the number of sweeps; all accepted parameters within the conditions of C121 and C124, all tolerances, all ideal sources", "why_tests_cant": "a test runs with one implementation of BLAS, one number of threads and one processor, that is with one order of summation", "anchors": ["src/greens_func.c:208", "src/greens_func.c:278", "src/linalg.c:82", "src/linalg.c:128", "src/linalg.c:235", "src/linalg.c:253", "src/linalg.c:258", "src/time_flow.c:484", "src/main.c:main"]}
{"id": "C128", "title": "Without interaction a run gives the exact correlation functions in imaginary time", "statement": "If U = 0 and there are no phonons, the arrays of the unequal time measurements which a run from scratch writes (Green's functions, density, spin, pairing, current and Raman correlations) are, for any random numbers and interruptions, exactly the number of measurements (or one after normalisation) times tr(exp(-(beta-tau)H) X exp(-tau H) Y) / tr(exp(-beta H)) with beta = L dt and tau = l dt, averaged over the cells, where X and Y are the operators belonging to the array (for the Green's functions with the sign of the time ordering), without statistical error and without error of the time discretisation; the sign written is the number of measurements.", "quantifier": "all accepted parameters with U = 0, without phonons and with unequal time measurements; all seeds, numbers of iterations and slices, and all points of interruption", "why_tests_cant": "a test compares some numbers for one lattice with a tolerance; the statement is an identity of the arrays of all runs with traces over a space whose dimension grows exponentially", "anchors": ["src/greens_func.c:ComputeUnequalTimeGreensFunction", "src/measurement.c:AccumulateUnequalTimeMeasurement", "src/measurement.c:NormalizeUnequalTimeMeasurementData", "src/linalg.c:BlockCyclicInverse", "src/monte_carlo.c:DQMCSimulation"]}
{"id": "C129", "title": "The profiling report of the program is correct", "statement": "For every simulation of the program with profiling, whatever its parameters and random decisions, the distribution of parallel sections over threads, their interleaving and the clock: every call of Profile_Begin and Profile_End is defined as long as there are fewer than 2^31 of them (the buffer for the name with the thread number is long enough), no block is entered inside a block of the same name and thread, and the report has, for every name and thread, the number of its intervals and the sum of their lengths. If the clock does not go back, this sum does not wrap around and is at most the total wall time, so no percentage exceeds 100. The main blocks are counted once for every iteration, once for every time slice, and once for every nwraps slices; all threads together enter TimeFlowMap twice for every construction of the Green's functions.", "quantifier": "all numbers of slices, products, wraps, measurements, iterations and phonon proposals; all thread numbers, interleavings and clock values", "why_tests_cant": "interleavings and clocks cannot be enumerated, and the loops are unbounded; the profiler is wrong for nested blocks of one name, so it matters that the program has none", "anchors": ["src/profiler.c:Profile_Begin", "src/profiler.c:Profile_End", "src/profiler.c:Profile_Stop", "src/time_flow.c:TimeFlowMap", "src/monte_carlo.c:DQMCIteration", "src/monte_carlo.c:DQMCPhononIteration", "src/monte_carlo.c:DQMCSimulation"]}
{"id": "C130", "title": "A debug build prints no warning and changes no result", "statement": "With DEBUG or _DEBUG, the iterations compare the Green's functions before and after every recomputation. The comparison prints nothing if and only if, for both spins, all entries agree up to 1e-8 N, the logarithms of the determinants up to 1e-8, and the signs are equal; otherwise each message is printed for its own deviation with the numbers of both spins. An iteration prints the comparisons of all its slices in order, and the debug code never changes a result. With exact arithmetic, in every run of the program with or without phonons, no warning is printed, and the run is defined for the same inputs and ends with the same state as the run of a release build.", "quantifier": "all admissible parameters, seeds, start iterations, Hubbard-Stratonovich and phonon fields, and stopping requests", "why_tests_cant": "a warning needs a run in which wrapping, rank one updates and the construction from scratch disagree; all fields and random decisions of all lengths cannot be tried", "anchors": ["src/monte_carlo.c:DQMCIteration", "src/monte_carlo.c:DQMCPhononIteration", "include/util.h:UniformDistance", "src/greens_func.c:CopyGreensFunction"]}
