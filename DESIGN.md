# Design of the formal model of hubbard-dqmc

This file says what is modelled, how each property of `properties.jsonl` is
stated and proved, what is trusted, and where the code disagrees with a property.

## 1. Trusted base

* Lean 4.33.0's kernel; Mathlib is used as a library of checked proofs (it adds no axioms beyond
  the three below).
* Axioms: at most `propext`, `Classical.choice`, `Quot.sound` for every theorem.  No own axioms,
  no `sorry`, no `native_decide`, no `bv_decide`.
* The faithfulness of the definitions in `lean/Verif/**` to the C source in `/repo`.  Each
  definition cites the file and lines it models, and every simplification is named there.

### Simplifications shared by all modules

* Floating point: numerical code is modelled over the real numbers `ℝ`, so that the numerical theorems say that the
  *algorithm* is exact.  Rounding is modelled in `Random_GetUniform` (a parameter), in the Hubbard-Stratonovich tables (C112) and,
  with contracts for every operation, in the whole program without phonons (C113–C115, C117, C120, C121) and with phonons (C123).  Overflow and NaN are outside the model.
* BLAS/LAPACK calls are replaced by their mathematical contracts.  Where LAPACK has freedom
  (QR, LU, eigenvectors) the theorems quantify over *every* result that satisfies the contract.
  For each contract a lemma shows that it can be satisfied; the contracts in rounded arithmetic are met by the textbook
  algorithms (C120).
* `int` arithmetic is unbounded `Int`/`Nat`; `uint64_t`/`uint32_t` arithmetic is exact modular arithmetic (`BitVec`).
  That 32-bit `int` does not overflow in subscripts and sizes, and that subscripts stay inside their arrays, is a
  separate model (`Model/Index.lean`, C91): the control flow of each function with its list of accesses, written by hand
  next to the numerical model and not connected to it by proof.  Counters of accepted updates are C107.
* `malloc` never fails.  Code is compiled with `-DNDEBUG`, so asserts do nothing.
* The C preprocessor branch modelled is: no MKL, `PROFILE_ENABLE` on, OpenMP on.  The exception is `lattice_fourier.c`,
  which exists only with MKL (C92).
* Files are modelled as byte strings in a finite map; a crash may occur between any two
  elementary file effects (truncate, append of a prefix).

### Not modelled

The text of log messages (C119 models how `dupio.c` distributes it), operating-system clocks (an arbitrary sequence), memory
exhaustion.  The conversion of decimal numbers is an abstract function in most statements; `Decimal.Std` says what it is in the C locale (C102).

## 2. Layout

`lean/Verif/Model/<Area>.lean` contains definitions only (the model); `lean/Verif/Lemmas/` general
facts; `lean/Verif/Props/<Area>.lean` the specifications and the theorems referenced by
`MANIFEST.json`, followed by `example`s that show that the hypotheses can be met in a non-trivial
case.

| Area | C files | properties |
|---|---|---|
| Random (Lemmas: SlotPoly, CharPoly, PrimeCert, Xorshift; Props: Random, Period) | random.c | C01–C04, C68 |
| HashTable | hash_table.c | C06, C07 |
| Params | param_parser.c | C08–C12 |
| Lattice | measurement.c (maps) | C13, C14 |
| Kinetic | kinetic.c, linalg.c (MatrixExp) | C15–C18 |
| Stratonovich | stratonovich.c | C19, C20, C33 |
| TimeFlow | time_flow.c, linalg.c | C21–C25 |
| Greens | greens_func.c | C26–C29 |
| BlockCyclic (Lemmas: BlockMat, BlockQR, BlockTri, BlockRot), GreensUneq | linalg.c, greens_func.c | C44, C45 |
| MonteCarlo, Phonon, Sign, Sweep, SimulationInv | monte_carlo.c | C23, C30–C37, C63, C64 |
| Simulation, Progress | monte_carlo.c, progress.c | C38, C39, C54, C56 |
| Measurement (Lemmas: Measure, MeasureEq, MeasureUneq; Props: Measurement, MeasurementUneq, MeasurementPh, PhononBuffer, Means) | measurement.c | C40–C43, C46, C60, C61, C65, C66, C76 |
| Files | util.c, checkpoint.c, measurement.c (load/save) | C05, C49, C51–C53, C67 |
| Main (Lemmas: Resume, RngMap, RngLive, PhononDefined, Draws, MeasMap, Additive; Props: Main, Program, Runs, Extend, Lost, PhononLost, Reported) | main.c | C12, C47, C48, C50, C54, C55, C59, C75 |
| Profiler | profiler.c | C57 |
| Parallel | parallel regions of monte_carlo.c and measurement.c | C58 |
| Fock space (Lemmas: Fock, FockGamma, Wick; Props: Fock, Hubbard, HubbardProgram) | specification of monte_carlo.c, measurement.c | C62, C69–C72 |
| Distribution (Lemmas: Metropolis; Props: Stationary, IdealSource, Expected, ExpectedUneq, ExpectedProgram) | monte_carlo.c with ideal random numbers | C73, C74 |
| Distribution with phonons (Lemmas: NullSet, DrawSeq; Props: StationaryPh, AlmostSure, AlmostSureProgram, FreshStart) | monte_carlo.c, main.c with ideal random numbers | C77–C81 |
| Hubbard-Holstein path integral (Lemmas: PathIntegral; Props: Holstein, ExpectedPh, ExpectedPhProgram) | monte_carlo.c, measurement.c with ideal random numbers | C82 |
| Reference (Props: Reference, Textbook) | the whole program | C83 |
| MeasurementFull (Lemmas: MeasureFull) | measurement_full.c | C84–C88 |
| Reach | monte_carlo.c, main.c | C89 |
| FieldChain, Convergence, ConvergenceProgram (Lemmas: Ergodic, FlipChain) | monte_carlo.c, measurement.c, main.c | C90 |
| Index (Props: Index, IndexMeas, IndexProgram) | all functions with arrays: linalg.c, kinetic.c, stratonovich.c, time_flow.c, greens_func.c, measurement.c, monte_carlo.c, main.c, param_parser.c, random.c | C91 |
| Fourier | lattice_fourier.c, lattice_fourier.h | C92 |
| Trotter (Lemmas: Trotter) | consequence of C72, C90 | C93 |
| Heap (Lemmas: Heap; Props: Heap, HeapParams, HeapProgram) | all functions that allocate, release or keep pointers: linalg.c, kinetic.c, stratonovich.c, time_flow.c, greens_func.c, measurement.c, monte_carlo.c, util.c, checkpoint.c, hash_table.c, param_parser.c, profiler.c, main.c | C94, C95 |
| (Lemmas: SpinRotation; Props: HalfFilling, FreeRun, SpinSymmetry) | consequences for half filling, for U = 0 and for rotations of the spin | C96–C98 |
| (Props: Names) | names of files, independence of runs | C99 |
| (Lemmas: BoxMuller, GridLaw; Props: Equidistribution, Normal) | 16 consecutive outputs of the generator; normal numbers | C100, C101 |
| Decimal (Props: Decimal, ParamsComplete) | `atoi`, `atoll`, `atof` of the C library as used by param_parser.c | C102 |
| (Props: Samples, SampleRuns) | bin/sample_input_*.txt | C103 |
| (Lemmas: GenericWeight, ShortSteps; Props: Generic) | conditions on the weights as functions of dt | C104 |
| PathChain, ResponsivePh, ConvergencePh, LongRunsPh, LongRunsPhProgram (Lemmas: MeanErgodic, Links, Rigid, Settle) | monte_carlo.c, measurement.c, main.c | C105 |
| PositiveZ (Lemmas: Reflection) | consequence of C78 | C106 |
| Counters32 | monte_carlo.c, measurement.h:150-155 | C107 |
| Occupation | consequence of C78, C90, C105 | C108 |
| Translation (Lemmas: SitePerm) | consequence of C16, C78, C90, C105 | C109 |
| MainFull (Lemmas: MeasFwd, FullFollows; Props: FullProgram) | main.c, measurement_full.c, checkpoint.c | C110 |
| FullConverge | consequence of C84, C85, C90, C105, C110 | C111 |
| StratonovichRound | stratonovich.c:24-43 in rounded arithmetic | C112 |
| Inexact | monte_carlo.c:31-180, 821-853 in an unspecified arithmetic (control flow only) | C113 |
| Rounded | time_flow.c:15-59, 218-301, 327-495, greens_func.c:62-215, monte_carlo.c:31-180, measurement.c:170-313 in rounded arithmetic | C114 |
| RoundedTables | kinetic.c:11-105, linalg.c:47-90, stratonovich.c:10-45, monte_carlo.c:752-768 in rounded arithmetic | C115 |
| ProgressReport | progress.c:37-157, monte_carlo.c:750, 813-853 | C116 |
| RoundedUneq | linalg.c:144-376, greens_func.c:238-327, measurement.c:550-811 in rounded arithmetic | C117 |
| TimeReflection | consequences of C74, C78, C90 for measurement.c:550-811 | C118 |
| Dupio | dupio.c, main.c:57-106 (messages) | C119 |
| Reference, Scale | textbook BLAS/LAPACK in rounded arithmetic | C120 |
| Reference | as C120, with the tables of C115 | C121 |
| Antiferro, AntiferroLimit | measurement.c, greens_func.c, monte_carlo.c (half filling) | C122 |
| RoundedPhonon, RoundedLogdet, RoundedPhSteps, RoundedPhMoves, RoundedPhTies, RoundedPhRun, RoundedPhMeasure, RoundedPhProgram | monte_carlo.c, greens_func.c, time_flow.c, measurement.c, main.c (with phonons) in rounded arithmetic | C123 |
| RoundedPhLong | monte_carlo.c, measurement.c, main.c (long runs with phonons) in rounded arithmetic | C124 |
| Jacobi, JacobiRun | linalg.c (`dsyev`), whole program with scalar errors only | C125 |
| Binary | IEEE 754 rounding, whole program with t bits | C126 |
| SumOrder | any order of summation, fused multiply-add | C127 |
| FreeUneq | unequal times without interaction | C128 |
| ProfileTrace | calls of the profiler in time_flow.c, monte_carlo.c | C129 |
| Debug | debug code of monte_carlo.c, UniformDistance of util.h | C130 |

## 3. Plan per property

* **C01** `BitVec 64` model of `GetUint`; the retry loop as a relation "first accepted draw".
  Spec: set of accepted draws with a given result has cardinality `2^64 / bound`.
* **C02** Shuffle as a fold over array functions with a list of draws; injectivity on draw
  lists plus counting gives the bijection with permutations.
* **C03** Real model with a rounding parameter `rnd` (monotone, fixes 0<2^k); bounds by monotonicity.
* **C04** Step as a function of (16 words, position); inverse exhibited; xor-shift linear maps
  injective by bit arguments; multiplicative constants odd.
* **C68** The words of the generator solve a linear recurrence over GF(2).  A polynomial of degree
  1024 annihilates all solutions (checked on the 1024 unit states at once, packed into one natural
  number); modulo this polynomial `X^(2^1024-1) = 1`, while `X^((2^1024-1)/q) - 1` has an explicit
  inverse for each prime factor `q`.  So a period of a non-zero solution is a multiple of
  `2^1024-1`; counting gives the distribution of 16-tuples and termination of the retry loops.
  The certificates were computed outside Lean and are checked by `decide +kernel`, i.e. by kernel
  evaluation of natural number arithmetic (`Nat.mul`, `Nat.xor`, `Nat.shiftLeft`, ...).
* **C05** Save permutation as in the source.  *False* except for positions 0 and 8: a witness is
  given, `_partial` theorem for p ∈ {0, 8}, and exact characterisation.
* **C06, C07** Bucket array of chains, refinement to `Key → Option Val`, any hash function
  (FNV1a is an instance); deletion yields a list of freed values, compared as multisets.
* **C08–C10** Tokeniser, table building and interpretation as total functions on `List Char`;
  specification by filtering lines.
* **C11** Boolean function following the C checks; specification as a proposition.
* **C12** *False*: one witness per corner; `_partial` with the additional guards.
* **C13, C14** Index formulas over `Nat`; group laws via the quotient of ℤ×ℤ by a lattice.
* **C15–C18** Accumulation loops as folds over the flat array; entry formula as a sum over bonds.
  C18 *false* on width-1 lattices; `_partial` for Nx, Ny ≥ 2.
* **C17** eigendecomposition contract; comparison with `NormedSpace.exp`.
* **C19, C20, C33** real analysis with `Real.exp`, `Real.sqrt`.
* **C21–C29** `Matrix (Fin N) (Fin N) ℝ`, contracts for QR/LU, induction on the factors.
* **C30–C37** sweep as fold over slices and sites with an arbitrary random source; invariants.
* **C38–C40** counting over the iteration loop.
* **C41, C42, C46, C60, C61** flat accumulation loops as folds; sums over cells as the spec.
* **C43** accumulate/normalise as list fold; permutation invariance.
* **C44, C45** block matrices as functions `Fin p → Fin p → Matrix`; QR contract per block.
* **C47–C50, C52–C55, C59** state machine of a process with a file system.  C47, C48, C50, C59
  and parts of C49, C52, C53 are *false* for the unchanged code: witnesses plus `_partial`.
* **C51, C67** file map, `ReadData`/`WriteData` with failing system calls.  A `double` is a value with
  eight abstract bytes (`Float64`: any injective encoding of the reals); integers and words are
  little endian two's complement.
* **C56, C57** state machines, induction over histories.
* **C58** Interleaving semantics: memory is a family of objects, a thread is a step relation on private
  data and memory, a section has a list of objects read, a list written and an effect.  `IsRegion` lists
  the parallel regions.  Threads may execute the sections in steps of any size.  BLAS and LAPACK are
  taken to have no shared state.  The table of the profiler is used by both sections (inside a critical
  region) and is the only object whose content may depend on the schedule.
* **C62, C69–C72** Operators on the Fock space as Jordan–Wigner matrices over finite sets of modes
  (`cre`, `ann`, `num`), which is the only specification needed.  The second quantisation `gamma A`
  of a one-body propagator is built with the exterior algebra; `trace (gamma A) = det (1 + A)` and
  `exp (Σ T_ab c†_a c_b) = gamma (exp T)` are proved, and Wick's theorem for two and four operators
  follows from `gamma A c†_b = Σ_a A_ab c†_a gamma A` and the anticommutation relations.  So the
  contractions which serve as the specification of the estimators (C41, C46, C65) are proved to be
  traces of operators.  The Hubbard–Stratonovich sum is carried out slice by slice.
* **C73, C74** The generator is replaced by a source `rng` on a probability space for which
  `Rng.Ideal` holds: a uniform draw is uniform and independent of the remaining source, and all
  orders of the sites are equally likely.  `idealRng` on an infinite product space shows that such
  a source exists.  The random function "one site update" preserves (weights × source) by the
  acceptance rule `u < min(1, |ratio|)`; `Tracks` composes such functions and at the same time
  follows the expected sum of an accumulator.  Only stationarity is claimed here; convergence is C90.
  The formulas of C72 then turn the accumulated sums into thermal expectation values.
* **C75** Faults per write (`Fault`); spec: contents of files before, at and after the first failure.
* **C76** Induction over the list of samples, as C43.
* **C77** As C73, on fields and phonon coordinates with a measure that has a density. Shifts, reflections and the
  Metropolis step preserve it (`shiftStep_preserves`, `mapStep_preserves`). The measure of uncoupled coordinates is a
  parameter (`rest`), since the program never changes them.
* **C78** As C74, with integrals in place of sums; integrability of a contribution is a hypothesis.
* **C79** Each determinant is affine in each single `exp(-dt g x)`, hence vanishes everywhere or almost nowhere in every
  coordinate (`Dich`), and by induction over the coordinates (`dich_pi`). A proposal is a measure preserving map of the
  current configuration, so it is almost surely no zero of the weight.
* **C80** The loops are sequences of draws (`fold_draws`, `draws_row`); `draws_preserving` by induction.
* **C81** The initial distribution has a density (C80), so C79 applies. Small `exp(-dt g x)` make both determinants
  close to one, hence no field has weight zero for all phonon coordinates (`weight_exists`).
* **C82** Spec: `holsteinIntegral`, the trace of a product of operator exponentials integrated over periodic paths. Each
  Gaussian times a trace is integrable (`PathIntegral`); the sum over Hubbard-Stratonovich fields gives the interaction
  for each path as in C72; measurements at other slices follow by rotation in time (`holstein_rot`). The result holds
  with the convention `x / 0 = 0` also if the partition function vanished.
* **C63, C64** sign of the determinants from particle-hole symmetry.
* **C65, C66** as C41, for the time dependent Green's functions and the phonon fields.
* **C83** Spec: `Chain` and `Walk` (Reference.lean), a Metropolis method given by its weight and the order of the updates,
  and `textbook`, `Totals`, `Reports`, `Read` (Textbook.lean), which contain determinants, inverses and the text of the
  files only. Every update of the program is shown to be one of the method (`Same.hsSite`, `Same.localSite`, …), and the
  exactness of the Green's functions (C31, C36) turns the accumulated data into sums over the visited configurations.
* **C84, C85** Spec: the operators of C41 and C65, for sites instead of averages. `EqContrib`, `UneqContrib` give the value
  added to each entry; that the indices of different loop iterations differ is `pick1` … `pick4`.
* **C86** `AvgOf`, `UneqAvgOf`, `PhAgree` relate the data of the two files; the relations are preserved by every call.
* **C87** false, see finding 23. **C88** as C53.
* **C89** false, see finding 25. `program_reversed`: what happens instead, for any initial field and almost every sequence
  of random numbers; `program_unreachable`: the negation with a witness;
  `reachable_partial`: true if reversing an entry always changes the weight.
* **C90** Spec: `Converges`: the probability of a deviation by `ε` is at most `A (1 + 1/ε²) / n` after `n` iterations,
  with the same `A` for all initial fields. The fields after each time slice form a Markov chain whose state includes the
  position in the cycle of time slices and iterations. `Responsive`: reversing an entry changes the weight, except where
  the interaction vanishes. Then a function which the chain leaves invariant is constant (each proposal contracts the
  weighted square norm, strictly unless the function does not notice the reversal), Poisson's equation is solvable, and
  the second moment of a sum over `n` steps is of order `n`. `atomic_conditions`: the condition holds without hopping for
  any even `L`. It can fail (odd numbers of entries, where a reversal can be a symmetry), so it is a hypothesis.
* **C91** Spec: `Event.ok` (numbers are defined in 32-bit arithmetic, the block of elements lies inside the buffer) and
  `Cfg.Fits`, five inequalities on the numbers of elements. `program_safe_iff`: all events of a run are in order exactly
  if the sizes fit. The tables of the lattice are those of the numerical model (C13, C14). Data dependent values
  (permutations, fields, branches on random numbers) are replaced by all values in their range. `validated_overflow`:
  accepted parameters that overflow.
* **C92** Spec: `coeff`, the sum of a function on the lattice against conjugate plane waves `exp(2πi(kx x/Nx + ky y/Ny))`.
  The MKL descriptors are records of the settings that the code makes; `DftiComputeForward`/`Backward` are contracts taken
  from the MKL documentation that hold only for committed descriptors with complex conjugate-even storage, out of place
  (`forward_exists`, `backward_exists` show that they can be met).  `forward_coeff` and `forward_rest`: stored and remaining
  coefficients; `round_trip`; `forward_inside`, `backward_inside`: nothing else is written; `create_status`: the first failing
  call is reported; `coeff_translate_iff`: for two or more rows these waves diagonalise the translations of C13 exactly if
  `pbc_shift` is a multiple of `Nx`.
* **C93** Spec: `gibbsMean H β X = Tr(e^{-βH} X) / Tr e^{-βH}`, `gibbsPair` for two times, `hubbardOp p` (the Hamiltonian
  with the parameters of the run), `withSlices p β L` (`L` slices of length `β / L`), `order f` (1 or 2). Error bounds for
  products of exponentials in any Banach algebra (`Lemmas/Trotter.lean`: `trotter_one`, `trotter_two`), with explicit
  constants; a step of the program is not symmetric, but it is conjugate to a symmetric one, which gives the second order
  for symmetric operators (`symm_limit`). `slices_limit` transfers any statement about all entries of the arrays
  (`EqHolds`, `UneqHolds`); `program_limit` combines it with the convergence of long runs (C90). The constants depend on
  the lattice and on `β`; nothing is claimed about their size.
* **C94, C95** A second model of the program, `Model/Heap.lean`, with the allocations, accesses and releases of each function
  in the order of the source; numbers are left out, and each decision that depends on them, on time, on signals or on files
  is an entry of an arbitrary sequence, each failure of a library function an entry of another one.  Undefined behaviour
  is `none`.  It is connected by proof to the model of the parser (`parse_spec`: same parameters and status) and of the hash table,
  and written by hand next to the others.  Specifications `Spec F A m Q` are triples about the multiset of live
  resources (`F`: no library function fails); every function has one.  `program_defined`: all runs are defined;
  `program_balance`: what is left at the end is counted exactly (`phononMeasurements`); `program_late`: with a signal after
  `fclose(fd_log)` no run reaches the end.  C95 is *false* with phonons.  Not modelled: that the handlers call functions that are
  not safe in handlers; data races between the parallel sections (C58 is about those); after an error in the parameter
  file the remaining lookups are left out.
* **C96–C98** Three consequences which a user can check on the results.  C96: an invariant of the main loop (`samples_inv`) from
  the identity of the flows `flow_half_filling`, which also gives the sign (C64).  C97: without interaction the Green's functions do
  not depend on the field, and the product of the time steps is the exponential of the kinetic energy.  C98: rotations of
  the spin about the y axis are real; they act on operators as `turn` (conjugation with `gamma`), and the Hamiltonian, its
  time steps and the coupling to phonons commute with them (`commute_stepOp`).
* **C99** `fileSuffixes` lists the ends of all names by hand; `UsesOnly` says what it means that a function on disks uses only some files.
  A name is read backwards: nothing after the last slash contains one, and after `sim_` the first `_` ends the seed.
* **C100, C101** After sixteen steps all words of the state have been replaced by words which are known multiples of the outputs; steps are
  injective.  The law of Box and Muller is proved with polar coordinates; on the grid of the 64 bit words the radius is monotone in
  the first number and the sine has three monotone pieces, and averages of monotone functions over points near a grid are
  close to integrals (`grid_mono`).
* **C102** `strtol` and `strtod` as total functions on words; rounding is any rounding to nearest.  `parse_complete` writes a file: every
  finite double has an exact decimal expansion of at most 810 characters, which fits into a line.  The bounds 341 and 1024 come
  from the number of values of a name in the table (C08).
* **C103** The texts of the sample files are written down line by line; a `Sheet` holds the numbers which can be read in a file, and
  `Sheet.Matches` compares it with the words of the file (checked by evaluation for each file).  `Sheet.parse` is general.
* **C104** The product of the determinants is an analytic function of `dt > 0`, continuous at zero with the value `4^N`, so it has
  finitely many zeros in a bounded interval.  Up to terms `o(dt)` it is `∏ (2 + 2 cosh (m_i λ_i))` times a factor which does not
  depend on the field, where `m_i` is the sum of the field at site `i` over the time slices (`stepWeight_near`); reversing an
  entry changes `|m_i|` if the number of slices is even, so the difference of two weights is not identically zero either.
* **C105** Spec: `TendstoInMeasure` to the values of `holsteinMean`.  A sweep is a measure preserving map of configurations and
  random numbers, up to reversing entries of the field which do not act (`vary`).  By the mean ergodic theorem the averages
  along its orbits converge to invariant functions; an invariant function does not depend on the random numbers still to come,
  so every single update leaves it alone, and because every update of one coordinate is accepted with positive probability it
  is constant (`constant_link`).  Initial configurations only have to be absolutely continuous with respect to the weights.
* **C106** Reflection positivity: with an even number of slices, the integrand is `Σ_{S,T} F_{ST} (one half) F_{ST} (other half)`,
  where the halves share slices 0 and L/2, so for each pair of states the integral is that of a square (`swap_nonneg`); the term
  of the empty state is positive.  With an odd number of slices the link opposite to slice 0 is cut in the middle: the propagator
  is the square of a symmetric matrix, and the Gaussian function of the distance of the coordinates is an integral over an
  intermediate point (`bell_mul`, `oddTerm_nonneg`).
* **C107** The functions that increment counters are repeated with a check of each increment (`Counters32`).  `Chk f g` says that
  `g` is `f` followed by a check; since no operation decreases a counter, one check at the end is equivalent to all of them.
* **C108** The trace with a diagonal operator inserted is `Tr(G D)` for a positive definite `G`, since the product of time steps
  can be split in the middle; the diagonal of `G` gives the probabilities.  With phonons this uses the reflection of C106.
* **C109** A permutation of the sites acts on Fock space by conjugation with `gamma` of its matrix (`relabel`); translations on the
  twisted lattice commute with the Hamiltonian (from `bondSum_translate`, C16), and permute the coordinates in the path integral.
* **C110** `simulate_follows`: if the measurements of two systems follow each other under a relation of the measurement data, the
  whole runs do. The relation `Agree` is "average over cells" (C91). Simplification: the counters of `AllocatePhononData` of
  measurement_full.c, which the code leaves uninitialised (Finding 24), start at zero in `Main.Full`.
* **C111** `ratio_converges` (C90) and `ratio_eq_ph` (C105) for the entries of measurement_full.c; the runs are defined because they
  follow those of C90 and C105 (`simulate_follows`).
* **C112** log-relative errors (`Close`) are propagated operation by operation; `expm1_le` bounds the amplification of the error of the argument.
* **C113** perturbation of a Markov chain through the solution of Poisson's equation for the exact chain (`Lemmas/Rough.lean`): the sum telescopes up to a martingale and a bias of at most 2 B N L eps per iteration, so no mixing of the inexact process is needed, which need not even be a Markov chain of the field.
* **C114** for every path of the field, the Green's functions and sequential products kept by the program converge to the exact ones of the field as u → 0, uniformly in the finitely many fields (`Lemmas/Ultra.lean`: limits along an ultrafilter of arithmetics replace explicit constants); since `TimeStepMatrices` and `GreenConstruct` start afresh, the error at a slice depends on fewer than 2·nwraps slices (`age`). The measurement converges term by term, and C113 turns this into a statement on the quotients. Simplifications: no infinities or NaN, no fused multiply-add, exact comparisons, changes of sign and integer conversions; contracts for BLAS/LAPACK in `Props/RoundedGreens.lean`. The sums of n measurements are rounded too, whence the condition (nequil+n)u ≤ u0.
* **C115** errors of first order (`Lemmas/FirstOrder.lean`: families of computations with errors O(u), closed under the operations; the matrix exponential is Lipschitz, `exp_sub_exp`). Neither eigenvectors nor eigenvalues need to converge: only V exp(w) Vᵀ = exp(V w Vᵀ) is used. C112 gives the Hubbard-Stratonovich factors. Simplifications as for C112 and C114.
* **C116** the state of `progress.c` after j iterations as a function of the times at which they ended (`after`), compared with a report written from these times only (`trueReport`, `estimate`).
* **C117** the block cyclic inverse is followed along an ultrafilter of arithmetics: QR factors converge to some exact QR factors of the limit, whose choice does not matter for the inverse (`Props/RoundedBlocks.lean`); then the three kinds of Green's functions and the additions of the measurement converge to the exact ones of the field (`Props/RoundedUneqGreen.lean`, `Props/RoundedUneqMeasure.lean`), uniformly in the field (`uneqClose`); the rest is C114 with one more measurement per sweep (`tracking`, `accurate_core`).
* **C118** cyclicity of the trace, with phonons after a rotation of the paths (`rot_integral`); density, spin and on-site pair operators commute with the repulsion, so that the step can be symmetrised, and traces of two such operators are scalar products (`Lemmas/GramTrace.lean`); convexity is the inequality of Cauchy and Schwarz.
* **C119** structural induction over the nested calls: preorder on the standard output, postorder in the log file.
* **C120** families of matrices and arithmetics along an ultrafilter, in a calculus of moderate quantities (at most k b^k) and negligible ones (at most u k b^k), `Lemmas/Scale.lean`; `Scale.uniform` turns statements on all families into uniform bounds. No cancellation in dlarfg gives relative errors of the reflections; partial pivoting bounds the multipliers by 2; the inverses of the pivots are moderate since the determinant of the computed factors is close to that of the matrix.
* **C121** C115 and C117 with the arithmetic of C120.
* **C122** In one configuration the time dependent Green's functions of the two spins are related by `Holes` (the matrices of the spins satisfy `step_half_filling`), so products of Green's functions of both spins are squares up to a sign.  Expectation values are averages of these with positive weights if no weight vanishes; a weight is an analytic function of a factor of the hopping and does not vanish without hopping (`generic_weights`), so the general case follows by continuity.  Rotations of the spin (C98) give the z components.
* **C123** `Model/RoundedPhonon.lean` repeats the model of the runs with phonons with every operation replaced by an arbitrary function.  Each step is continuous at the exact data as long as no decision is a tie (`StLim`, limits along ultrafilters); ties of a comparison with a uniform random number have probability zero, and the exact steps preserve the product of the distribution of configurations and random numbers (C77), so almost surely no step of the run meets one (`AeF`).  The tolerances follow by contradiction from the limits (`simulate_close`).
* **C124** C105 gives the limit of the exact runs, C123 says that almost surely a rounded run follows the exact run.  The accuracy needed depends on the random numbers; if no accuracy were sufficient for a set of large probability, then a sequence of better and better arithmetics would fail on sets of probability above the tolerance, and by continuity of the measure some random numbers outside the null set would fail infinitely often (`eventually_small`).  The quotients are continuous because the sum of the signs of the exact run is not zero with a probability tending to one (`program_signs_ph`).
* **C125** A rotation which annihilates the largest entry reduces the Frobenius norm of the part outside of the diagonal by the factor 1 − 1/N² (`off_step`).  The computed cosine and sine are accurate in the relative sense (`rel_schur2`: no cancellation), so that a computed rotation differs from an exact orthogonal transformation of the current matrix by a small matrix; Frobenius norms are invariant, and the errors of the rotations add up (`After.iterate`).  The polynomial bounds are those of `Lemmas/Scale.lean`.
* **C126** `fl` divides by the distance of neighbouring numbers (`ulp`, from the binary logarithm), rounds to an integer with ties to even, and multiplies again.  A number with t bits is a multiple of `ulp x` or below the power of two below x (`representable_cases`), so that the nearest multiple is the nearest number.  The runs follow from C125 with u = 2^-t; (1 − 1/N²)^(N² t) ≤ exp(−t) ≤ 2^-t.
* **C127** An entry is the value of a tree (`SumTree`) whose leaves are the rounded products and the start value; `fused` nodes add a product with one rounding.  By induction on the tree, the error is at most ((1+u)^c − 1) times the sum of the absolute values, where c is the number of roundings (`SumTree.error`), and c ≤ 2(n+1).  `Reordered` replaces the matrix products of a platform by any functions of this kind; the contracts of C114 and C117 hold again (`Reordered.within`), and C117 and C124 apply.
* **C128** Without interaction all samples have the same unequal time Green's functions (`free_timeGreen`), so that one array e of contributions serves for all of them (`accumulateUneq_estimates`), and its entries are the averages of C74 over constants; the powers of the step operator are exponentials (`free_gibbs_pair`).  The invariant of the run is arr = nsampl · e.
* **C129** Code with blocks, loops and two parallel sections has a set of sequences of calls.  By induction over the code, the calls of every thread and name alternate if no block is inside a block of the same name (`Code.good`); an interleaving of different threads does not change the calls of a single one (`Merge.filter`).  Then C57 applies (`measured`).
* **C130** The invariants of the iterations (C30, C36) say that the recomputation is the identity (`Inv.recompute_eq`), so the comparison has nothing to report (`warnings_self`); the loops carry this over to whole runs (`simLoop_logged`).

## 4. Findings: places where the code disagrees with a natural property

1. `SaveCheckpoint` stores `s[(i - p + 16) % 16]` (checkpoint.c:75) instead of `s[(i + p) % 16]`;
   the stream survives only for p = 0 and p = 8 (C05, C47).
2. A finished run stores normalised averages; extending it adds raw sums to them (C48).
3. Nearest-neighbour maps ignore `pbc_shift` (C14).
4. Negative `pbc_shift` is accepted and yields negative indices (C12).
5. `use_phonons` with `neqlt = 0` divides by zero in main.c:129 (C12).
6. `L == prodBlen` with `nuneqlt > 0` indexes outside the H matrix (C12, C44).
7. The diagonal of the hopping matrix is assigned, dropping hoppings that wrap onto the same site
   when Nx = 1 or Ny = 1 (C18).
8. Saving over an old checkpoint is not atomic; results are written after the checkpoint (C49, C50).
9. `LoadCheckpoint` does not check that field entries are 0/1; `U < 0` is accepted (C52, C12).
10. Lines longer than 1023 characters are split; more than 1024 values overflow (C08).
11. The local phonon energy change is wrong for L = 1 (C34).
12. With nsampl = 0 the progress never reaches OUTPUT and normalisation divides by zero (C56).
13. Phonon field and statistics are not part of a checkpoint (C59).
14. The 1/(2 dt) constant of the phonon kinetic energy is added Norb times to orbital 0 (C60).
15. `Profile_End` without a running interval adds the absolute clock value; this happens for nested
    blocks of the same name (C57).  A name with a dash may be that of another thread.
16. A checkpoint with more iterations than requested runs nothing and is not normalised (C55).
17. A SIGINT during the last iteration or the output makes the exit code 1 although the run is
    complete (C54).
18. The Raman B1g estimator lacks the anticommutator term on chains (exactly one of Nx, Ny is 1)
    (C65).
19. `X_avg_sq` accumulates the square of sign times average, so the sign is lost (C66).
20. `WriteData` ignores the result of `fclose`, so data lost in the final flush are reported as
    written (C67).
21. The loaders of measurement data ignore the results of `ReadData`: missing or damaged files leave
    the accumulator at zero without any message (C53).
22. The results of `WriteData` are ignored by `SaveMeasurementData` and its relatives: with a full
    disk the program ends with exit code 0 and without results (C75).
23. `PrintMeasurementDataSummary` of measurement_full.c does not divide the density by the average sign (C87).
24. `AllocatePhononData` of measurement_full.c (807-826) leaves the counters of accepted updates uninitialised, which
    `DQMCPhononIteration` increments (not stated as a property).
25. (C89) The field update proposes to reverse every entry once per iteration and accepts if `u < ratio`. At sites with
    `U = 0` the ratio is 1, so that every proposal is accepted (except for `u = 1`): these entries alternate between two
    values and most fields are never reached. The results do not depend on them, so this is harmless there (C90); it is
    the reason why C90 needs a hypothesis on the weights.
26. (C91) The sizes of arrays are products of `int`s that the parameter checks do not bound. For measurements at unequal
    times `N*N*numBprod*numBprod` (measurement.c:458) overflows for realistic parameters, e.g. a 20×20 lattice with 120
    products of time step matrices.
27. `AccumulatePhononData` never frees `cur_X_avg` (measurement.c:1011): every phonon measurement leaks `Norb` doubles
    (C95). The check for leaks at the end of `main` (main.c:296-307) would report it.
28. `fclose(fd_log)` (main.c:275) leaves the pointer in place and the signal handlers installed: SIGINT or the progress
    signal during the release of memory writes to a closed file (C94).
29. `MatrixExp` (linalg.c:62), `BlockCyclicInverse` (linalg.c:369-371), `ReadData` and `WriteData` (util.c:31, 38, 65) and
    `ParseParameterFile` return from errors without releasing blocks or closing files (C95).
30. (C102) Words which are not numbers are read as zero without an error (`mu abc`), and integers in scientific notation are cut
    (`nsampl 1e4` is one sample). Lists of hoppings are limited to 341 entries (three of 1024 words each), and no more than
    1024 orbitals can have interactions. Seeds of at least 2^63 have to be written as negative numbers.
31. (C107) The counters of phonon updates are `int`s; e.g. 2^26 iterations with 64 updates per iteration, or a 16×16 lattice with
    L = 128 and one update per site and slice after 65536 iterations, overflow them. `PrintPhononData` prints these totals of all
    orbitals as the ratios of every single orbital (measurement.c:1103-1108), as 0/0 if `n_block_updates` is zero, and
    `SavePhononData` does not save the flip counters.
32. (C112) `delta[1] = 1/(delta[0]+1) - 1` (stratonovich.c:43) cancels: its relative error is of order u/delta[0], and it is
    stored as 0 when delta[0] ≤ 2^-53, whereas `expVu`, `expVd` and `delta[0]` keep full relative accuracy. `expm1(-2λ)` or
    `-delta[0]/(delta[0]+1)` would be accurate. Harmless unless U·dt is below about 1e-30.
33. (C114) `ValidateSimulationParameters` (param_parser.c:448) accepts nwraps > L. Then `(l+1) % nwraps == 0` (monte_carlo.c:125, 655)
    never holds for l < L, so the Green's functions computed at the beginning are wrapped and updated through the whole simulation
    and never recomputed (`never_recomputed`); rounding errors grow with the number of iterations.
34. (C116) `UpdateProgress()` is called at the end of the loop body, before `(*iteration)++` (monte_carlo.c:818, 852). A signal in between
    reports one completed iteration too few with estimates one iteration too long, and after the last equilibration iteration
    "Completed measurement iterations: -1" (`report_minus_one`, `report_late`).
35. (C119) The handlers of SIGINT and SIGUSR1 call `duprintf`, thus `vprintf` and `fflush`, which are not async-signal-safe:
    if the signal arrives while the program itself is within one of these functions, the behaviour is undefined (with the
    usual libraries a deadlock or interleaved text). Also `stopped` is an `int` instead of a `volatile sig_atomic_t`
    (checkpoint.c:9). C119 covers signals between the two writes only.
