# Design of the formal model of tveness/spinchain

## Scope and approach

The Rust sources under `/repo/src` are modelled function by function in Lean 4
(`lean/Verif/Model/*.lean`).  Every definition cites the file and lines it
models; simplifications are stated in that comment.  The model is *polymorphic
in the scalar type* (`F`, the Rust `f64`): every Rust arithmetic expression is
transcribed with the same operators in the same order.  Theorems are proved at
different scalar types:

* **any `F`** (no laws at all): structural facts – panics, indices, frame
  conditions, non-interference, order independence.  They hold verbatim for
  IEEE `f64`.
* **`ℝ`** (`Instances/Real.lean`): exact arithmetic, for conservation laws,
  geometry, statistics.  What is *not* exhibited: rounding, overflow, NaN.
  (In Lean `x / 0 = 0`; theorems at ℝ therefore carry explicit hypotheses that
  exclude divisions by zero, and the excluded case is treated at `XF`.  The
  one division not excluded everywhere is the phase `2 π t / tau` of a periodic
  drive: theorems about driven chains are to be read with tau ≠ 0.  C103 proves
  that then ℝ and `XF` agree, with the complete list of the other divisors;
  C104 says what happens for tau = 0.)
* **`XF`** (`Instances/XF.lean`): exact arithmetic extended by NaN, ±∞ and
  signed zero (IEEE-754 rules for exceptional values), for statements about
  division by zero and NaN.  What is not exhibited: rounding of finite values.
* **`B64 m`** (`Instances/B64.lean`): IEEE-754 binary64 – round to nearest
  even, overflow, gradual underflow, signed zero, NaN – computed on rationals.
  The mathematics library (`sqrt`, `sin`, `cos`, ...) is a parameter `m`.  The
  theorems that need it assume a library with small errors (`Accurate m`,
  satisfied by `goodLibm`); `sqrt`, `sin`, `cos` of the real library are not
  modelled further.  Concrete witnesses are evaluated by the kernel
  (`decide +kernel`, no compiled code, no extra axioms).

Rust-level conventions

* A Rust panic is an explicit `Except.error` value (`Panic`).  `usize`
  subtraction is checked (debug-build behaviour; a release build wraps and then
  panics at the following out-of-range index, which is the same observable
  outcome wherever we use it).
* `Vec<T>` is `List T`; reading or writing out of range is a panic.
* Random draws are explicit arguments; theorems quantify over all of them, or
  integrate over them with Lebesgue measure.
* Channels and threads: explicit message sequences and schedules; theorems
  quantify over all interleavings.
* File system: explicit map from names to contents.

Directory layout: `Model/` transcribes the code; `Spec/` holds the small
independent specifications (Hamiltonian, precession, Fourier modes, ...);
`Lemmas/` helper results; `Props/` the property theorems, each with an
`example` showing that a concrete case meets the hypotheses.

## Trusted base

* Lean 4.33.0's kernel and the three standard axioms `propext`,
  `Classical.choice`, `Quot.sound`.  `AXIOMS.md` lists, for every theorem named
  in `MANIFEST.json`, the axioms it depends on (output of `#print axioms`).
  There are no axioms of our own, no `sorry`, no `native_decide`.
* The transcription of the Rust code into Lean.
* External crates, beyond the contracts stated at the definitions using them:
  `rand`/`rand_distr` (range of the draws, `Normal::new` failing on a
  non-finite deviation, `gen_range` panicking on an empty range;
  where a theorem speaks of a distribution or a mean, that the draws are
  independent and have their nominal distributions: uniform on `[0, 1)`, on
  the multiples of `2 ^ -52` in it (C106) or on a range of integers, normal),
  `rustfft` (the discrete Fourier sum), `toml`/`serde` (a TOML file is a table
  of keys and values; parsing and printing text is not modelled), `glob` (all
  file names of the given form), `clap` (which options are set), `std::fs`,
  `threadpool`, `std::sync::mpsc` (unbounded FIFO channel).

Modelled: all of `spin.rs`, `config.rs`, `spinchain.rs`,
`spinchain_langevin.rs`, and the run modes, writers, averages and observables
of `main.rs` and its modules.

Not modelled: `#[cfg(test)]` code, `build.rs`, the debugging macro, `Index`
sugar (`index`/`index_mut`, the same operation as a vector access), the unused
`pbc_index_odd/even`, text printed to the terminal and progress bars, the
digits chosen by `{}` for a number (except in C108 a row is the sequence of its
numbers, C108 shows that this makes no difference if parsing undoes printing, as
Rust documents; where torn or partial lines matter, C53, a line is a sequence of
bytes), wall-clock time and
thread scheduling policies (all schedules are allowed), memory limits (except
the capacity panic of C54), and worker panics being unnoticed by the pool.

## Plan per property

| id | modelled | how proved |
|----|----------|-----------|
| C01–C03 | `Spin::rotate` | ℝ: Rodrigues algebra; derivative via `HasDerivAt`; group law by angle addition |
| C04 | `Spin::rotate` | `_partial` for non-zero field; negation at XF (all components NaN) |
| C05, C06 | constructors | ℝ algebra; error branch for short slices |
| C07 | `theta`, `phi` | `_partial` for x ≠ 0; negation with witness at x = 0 |
| C08, C09 | `gs`, `rot_perp` | ℝ algebra, C03/C07 reused; the turning axis of C09 is characterised (unit, perpendicular, on the side of `rot_dir`), not taken from `gs`; XF for degenerate input |
| C10 | `PartialEq` | ℝ; witness for non-transitivity; NaN at XF |
| C11, C12 | `SpinChain::new` | any F for shape; ℝ for unit norm |
| C13, C14 | `SpinChain::new` | ℝ: rotation angle + calculus (integral of the sampling law) |
| C15 | `solve_beta` | ℝ: monotone iteration, existence of a finite number of steps |
| C16–C21 | energies, magnetisation | ℝ: loops converted to `Finset` sums over an independent Hamiltonian |
| C22–C25, C27–C31 | `update` and parts | ℝ; frame parts for any F |
| C26, C33 | `update`, `rotate_*` | any F |
| C32 | `h_ext`, `h_extp` | ℝ |
| C34 | metropolis ×5 | any F for frame; ℝ for norm |
| C35–C37 | `metropolis_update` | ℝ; Lebesgue measure for acceptance |
| C38–C40, C48, C67 | Magnus and Langevin samplers | `_partial` plus negation by witness |
| C41 | `mag_full` | any F: both blocks are instances of one function |
| C42, C43 | logging, spectrum | any F / ℝ with DFT contract |
| C44–C47, C68, C69 | Langevin | ℝ / any F |
| C49, C50, C70 | bisection | ℝ and XF, arbitrary estimator stream |
| C51 | work split | Nat with u32 wrap |
| C52, C53 | writers | permutations / prefix order over all interleavings; B64 witness |
| C54, C55 | file averaging | any F for panics; ℝ for means |
| C56, C57, C65, C66, C73, C75, C78 | run loops | ℝ; B64 witness for C57 |
| C58–C60, C62 | main, config, file names | explicit file-system state machine, any F |
| C61 | dynamic profile | ℝ |
| C63 | `rotate`, `update` | B64: error analysis with an accurate library, induction over histories |
| C64 | NaN propagation | any F with an absorbing value; instances XF and B64 |
| C71, C72, C79 | observables, histograms | ℝ, any draws |
| C74, C76, C77 | site logs, profiles, Monte-Carlo runs | ℝ / any F |
| C80 | `update`, energies | ℝ: frozen-field energy of each step is conserved; telescoping sum over the run |
| C81 | `update`, `h_ext` | ℝ: induction; the drive has period tau |
| C82 | `update` | ℝ: precession commutes with rotations about z |
| C83 | `update` | any F: relabelling sites by an even shift commutes with each sub-step |
| C84 | `update` | ℝ: a spin along its local field does not precess |
| C85 | `update` | ℝ: Taylor expansion of the splitting against the exact solution of the equations of motion, whose existence and uniqueness come from Picard–Lindelöf (Mathlib) for the field cut off outside the unit spheres |
| C86 | `update` | ℝ: each sub-step is a shear of rotations; product measure |
| C87 | energies | ℝ: Cauchy–Schwarz |
| C88 | `metropolis_update` | ℝ: Markov kernel over the draws; detailed balance integrated over the product of spheres |
| C89 | `metropolis_update` | ℝ: a sweep overlaps uniformly with independent random spins (Doeblin), contraction of ranges, stationarity |
| C90 | `SpinChain::new` | ℝ: change of variables for one step of the generator (rotated to the third axis, C86's invariance), Tonelli over the sites, null set of degenerate draws |
| C91 | `main`, lines 178-379 | any F: relation between the list of modes asked for and the list of rows appended |
| C92 | sampling loops of src/obs.rs with the three samplers | ℝ: law of the chain of samples from C88/C89, explicit rate, second moment of the sum of a geometrically mixing chain, Chebyshev |
| C93 | `mc_total_energy`, searches | ℝ: thermal mean as a quotient of integrals over products of spheres; monotone by comparing weights, strict because the energy is not a.e. constant (reflections of single spins), continuous by dominated convergence |
| C94 | searches and estimators of src/obs.rs with the number of samples as parameter | ℝ: the inverse temperatures a search can visit form a finite grid, so C92 and a union bound make all estimates accurate at once; then the noisy bisection of C70. For jvar or hvar not zero each estimate draws fresh disorder, so its limit is random: not covered |
| C95 | `update`, `h_ext` over binary64 and over ℝ | binary64 with `AccurateTo ε`: forward errors of every operation of one rotation, of a local field, of the drive and of the clock; Lipschitz bounds of the exact sub-steps; discrete Gronwall over the run; C85 for the error of the method. The square root is assumed correctly rounded, sine and cosine accurate to ε absolutely |
| C96 | `LangevinChain::update`, `even_omega`, `odd_omega` over ℝ, with the six numbers of an update as independent standard normal variables | pathwise expansion of the three sub-steps in powers of √dt with explicit cubic remainder, third-order Taylor expansion of the observable, Gaussian moments; integration by parts on products of spheres from rotation invariance; vanishing fields: redrawing an edge spin's noise makes the sub-step of that spin non-singular (a contraction argument and Lebesgue measure under maps with Lipschitz inverse), so each sub-step maps null sets of noise and spins to null sets |
| C97 | `LangevinChain::update` applied repeatedly with fresh independent normal noise, over ℝ | updates are non-singular on spins (C96), hence regular almost surely at all later updates; means along a run as iterated kernels, telescoping of the one-step expansion of C96; the generator applied to the energy is −γ times the torque excess; uniqueness of the temperature from the exact identity between torque excesses at two temperatures |
| C98 | the same runs with a time-dependent drive | one-step expansion of C96 for the energy, uniform in the fields (the energy is a fixed combination of smooth functions with bounded coefficients), telescoping with the field changed between updates |
| C99 | `update` applied repeatedly under a drive that repeats after p updates; samples of `trajectory_mean_e`; `metropolis_update` | ℝ: p updates are one measure-preserving map (C86), so Poincaré recurrence (Mathlib) for grid cells of shrinking size, and Birkhoff's pointwise ergodic theorem, proved in Lemmas/Birkhoff.lean by the maximal ergodic theorem; null sets stay null under sampling by stationarity (C88) |
| C100 | the kernels in benches/ (Model/Bench.lean) | any arithmetic: equality of the two loops entry by entry, panics included; ℝ: the factor left out by the unnormalised rotation, and the drive left out by the optimised fields (negation with the benchmark's own data) |
| C101 | `pbc_index_odd`, `pbc_index_even` | arithmetic modulo the ring |
| C102 | both `boundary_term` functions, means along Langevin runs (`meanChain`) and over thermal spins (`openMean`) | closed forms (Lagrange identity); integration by parts on the sphere (C96) for the thermal mean; one-step mean of the energy (C96, C98) plus Taylor expansion of the drive, summed over the run |
| C103 | `SpinChain` and `LangevinChain` with extended numbers (`XF`: NaN, infinities, signed zeros, no rounding) and over ℝ | a relation "finite with this value" carried through every operation, loop and panic; the three sub-steps by cases on the first vanishing field, which gives NaN (C04), and NaN stays (C64) |
| C104 | `h_ext`, energies, `update` with tau = 0 | any arithmetic with an absorbing NaN: the phase is NaN or infinite, so the x component of the drive is NaN; instances for extended numbers and for binary64 (the library's cosine of ±∞ is assumed to be NaN) |
| C105 | the energies, `m`, `m_tot` and `log` in binary64 against exact reals | absolute errors of every operation; sums by induction on the number of terms, with the bound `k (k ε)` allowing for the growing partial sums; Lipschitz dependence of the energies on spins and field; the sites `ssize/4` and `3 ssize/4` are computed exactly; combined with C95 for runs |
| C106 | `metropolis_update` and runs of it in binary64 against exact reals, with the same random numbers | absolute errors of proposal, energy difference and Boltzmann factor; the comparison with the third random number is decided outside an interval; counting of grid points in that interval (the uniform numbers of rand 0.8.5 are the multiples of 2^-52), union bound over the updates by induction |
| C107 | the five samplers as Markov kernels on unit spins; distributions that one update leaves unchanged | every configuration is reached in one sweep with a density bounded below (Doeblin): contraction, existence by completeness, uniqueness, mean-square error of averages; negative part: a stationary Boltzmann distribution forces the mean of exp(beta (E - E_i)) to be unchanged by every move, and exp(t) + exp(-t) > 2 makes it grow |
| C108 | the text of log files, averages and messages; `lines`, `split(' ')`, `str::parse` for `f64` and `usize` | splitting undoes joining because text that parses contains no separators; printing is any function that parsing undoes (a hypothesis, shown satisfiable by printing exact decimal expansions); cuts by induction on the lines |
| C109 | `update` and `m_tot` for couplings that are the same along x and y | the torques of a bond on its two ends cancel, sums over the ring telescope; transferred to the program by the global error bound of C85; negative part: one update of two spins computed exactly |
| C110 | thermal means of the energy sampled by `metropolis_update` | the uniform distribution on the sphere is unchanged by rotations and reflections, so the integrals may be mapped site by site; the energy is unchanged by the map in each case; fields: pairing each configuration with its reverse and `x (exp(-bx) - exp(bx)) < 0`; C92 for what the sampling loop returns |
| C111 | couplings and fields of `new` as functions of normal draws (C12) | infinite product of standard normal distributions; affine maps of normal variables; independence under injective selection of draws; variance of sums of independent variables |
| C112 | `h_ext` against the documented drives | the documented functions are written down separately; the elliptic one is compared at times 0 and tau/4; C12 for the field of the subsystem |
| C113 | the files opened by every function and by `main`, for appending or emptied (`Model/Outputs`) | the sections of `main` one after the other, against a table of options; an invariant for the names of log files; induction over arbitrary operations through the handles |
| C114 | the jobs of `Model/Runs`, `Model/Obs`, `Model/Langevin` | replacing the entries commutes with every update and every loop (naturality of `forRange` and `whileN`), and no observable reads them |
| C115 | thermal mean of the clean ring | ℝ: the transfer operator of the von Mises-Fisher density contracts Lipschitz constants (coupling by turns in planes), integration of a path site by site, comparison of the ring with the open path |
| C116 | `solve_beta` | ℝ: contraction of the iteration for e up to -1/2 (`_partial`); for e = -1/20 the stop criterion holds long before the solution (`C116_inaccurate`) |
| C117 | `update`, `total_energy2`, `m_tot`, `mc_total_energy`, `mc_system_energy_rot`, `new` with the fields of the fits | ℝ: derivative of the energy along the exact motion and torque (C109), global error (C85), conservation of volume (C86), change of weights under a map that almost keeps the energy |
| C118 | searches followed by the `get_obs` family, with the numbers of samples as parameters | ℝ: a search returns a point of a finite grid, so a union bound over the grid joins C94 with the error of the measurement (C92) under the product of both laws; change of a mean over a short interval of temperatures; where the two ensembles differ by a field, the tilted measure and the strict decrease of a mean energy |
| C119 | `genHist` of C72, with the search under the law of its draws | ℝ: the Metropolis chain, looked at every 10000 steps, enters any set of positive weight (geometric bound on the probability of a miss); the shell is open and a spiral lies in it; thermal magnetisation in a field from caps of the sphere and the bound of the mean energy by the free energy; conserved magnetisation of short steps (C109). False in a field, where the search asks for a state without magnetisation |
| C120 | `update`, `h_ext`, `mc_total_energy`, the Magnus samplers; the effective energy of the high-frequency expansion in Spec/FastDrive | ℝ: averaging over the oscillation along exact motions (C85), with constants uniform in the period, then the error of the integrator. Lower bounds for the wrong energies from the drift of their first-order term. (c) is false |
| C121 | `update` run from thermal states, `metropolis_update`, `mc_total_energy` | ℝ: the runs are almost everywhere a volume-preserving map (C86); the inequality exp(-x) ≥ 1 - x between the Gibbs weights before and after, with its case of equality; (e) by the convergence of the sampler (C89) on a set of spins it reaches almost surely (C99); (f) by the continuity of runs (C122), (g) by C120 |
| C122 | `update`; the sites counted around the ring by integers (Spec/LightCone), so that chains of different lengths can be compared | ℝ: two precessions differ by at most the difference of the spins plus that of the fields times the time; weights exp(-a d) with d changing by at most one from site to site grow by e^a from neighbour to neighbour |
| C123 | `responseUpdate` (the pass of `run_sim_response`), thermal means as in C93, observables after a number of passes (Spec/Response) | ℝ: a pass is an update (t < 0) or an update of the chain without static fields (C31); updates keep the measure (C86) and, undriven, the energy (C23); derivative under the integral; Cauchy-Schwarz; reversing all spins reverses the motion without fields |
| C124 | thermal means as in C93, `metropolis_update`, `mc_total_energy`; blocks of sites (Spec/Cluster) | ℝ: the weight is a product of kernels along the ring; a kernel bounded above and below makes two chains forget (Doeblin, in the doubled system with the tails swapped); Chebyshev; convergence (C89) |
| C125 | the same, two chains | ℝ: conditioned on the spins at distance d, the block has the same law in both; the conditioning is forgotten as in C124; motion: with the spins outside r sites replaced by upright ones the motion of the block changes little (C122), and then it is an observable of the larger block |
| C126 | `metropolis_update`, `SpinChain::new`, thermal means as in C93 (Spec/Gap) | ℝ: spectral gap. The thermal law of an arc of the ring, given one spin, is a Markov chain with kernels bounded below, for which a Poincaré inequality follows site by site with constants that do not grow; the one fixed spin is added by a variance decomposition. An attempted move is a positive self-adjoint operator (layers of min), so the gap bounds the norm on functions of mean zero; Cauchy–Schwarz for starts with a density |
| C127 | `estimate` (the loop of `estim_e2` and the others), `SpinChain::new`, `metropolis_update` (Spec/GapMean) | ℝ: the mean square of the sum of the samples obeys a recursion in the block operator; with the gap of C126 the terms after the start is forgotten add up to the thermal variance times N, the earlier ones are bounded by their number; Chebyshev for probabilities. A panic counts as an infinite error |
| C128 | `bisect` with the estimates of `find_beta2` and any number of samples (the program takes 1000, see C94_code), search law as in C94 | ℝ: the place an estimate is asked at is a measurable function of the earlier draws; Fubini over the draws of one estimate at a time, C127 for each, C70 for the search given good estimates. The constants are far from sharp and do not cover the 1000 samples of the program |
| C129 | thermal means of `mc_total_energy` (C124), `bisect` with the estimates of `find_beta2` as in C128 | ℝ: lower bound by a Bessel inequality: the deviations of the energy from its means over single spins at odd sites are orthogonal, and each has a variance bounded below by resampling the spin and its left neighbour; derivative under the integral; mean value theorem; C128 for the search |
| C130 | `metropolis_update_maglab`, `metropolis_update_rot_magnus`, `LangevinChain.metropolis_update`, the searches `find_beta_maglab`, `find_beta_rot` | ℝ, all draws: the energy difference each sampler computes is that of `metropolis_update` for another static field (spec `labField`, `rotField`); chains made by `SpinChain::new` from a configuration and from its copy with that field have the same spins and couplings, so means, estimates and searches are carried over from C126, C127 and C129 draw by draw |
| C131 | `estimate`, `bisect`, `SpinChain.new` with disorder, `energyAt` | ℝ: along the straight path between two sets of couplings and fields the derivative of the mean energy is the mean of the change minus beta times its covariance with the energy, and the covariances with a term at one site sum to a bounded amount (C124); then the search with noise (C70) and the sample numbers (C127), estimate by estimate, with the energies of the sixteen chains within a fixed distance of the energy of the reference chain. The normal draws are arguments, assumed bounded by Z |
| C132 | `SpinChain.new` with random draws, `energyAt`, `estimate`, `bisect` | ℝ: by C131 the thermal energy per site is a Lipschitz function of each of the 6 L draws with a constant of order 1/L on the draws within Z; the variance of a function of independent draws is at most the sum over the draws of the squared constants times the variance of a draw (by induction on the number of draws), then Chebyshev. The draws come from one stream in the order of the code, couplings before fields. For the search the energies are compared at the points of a net and in between by monotonicity |
| C133 | `run_mc`, `run_mc_profile`, `mcJobs`, `mcSplit`, `sampleLoop`, `profileWriter` | ℝ: C127 gives the mean square error of the mean each worker contributes; the average over all snapshots is the mean of these weighted by the shares of C51, and the square of a weighted mean is at most the weighted mean of the squares; then Chebyshev. The bound is proportional to the number of workers because every worker starts from its own chain and must forget it. The draws of the workers are independent; worker `i` gets as many as it uses |
| C134 | `run_sim` (`simJob`), `average`, `log`, `update`, `new` | ℝ: the log of a run (C56) as a function of the spins after the warm-up, which for almost all draws are regular for all times (C86, C99); its mean differs from the thermal mean by the warm-up bias (C126); the entries are bounded, so Hoeffding's inequality holds for the mean over independent runs; union over the lines and columns of the table of means (C54). Assumes that `average` finds the logs of these runs and no others. The warm-up bound is not sharp: it is small only at high temperatures |
| C135 | `gen_hist_dynamics`, `new`, `update`, `m`, `system_energy` | ℝ: the law of a new chain has a density (C90), so almost all of its starts are regular for all times (C86) and the entries of a row (C78) are a measurable function of its draws; rows are independent, so Hoeffding's inequality holds for indicators of bins and for the bounded columns; union over the bins. Means are over the start of `new`, not over the thermal state: this program has no warm-up |
| C136 | `trajectory_mean_e` (`trajJob`, `trajMean`), `new`, `update`, `system_energy` | ℝ: the mean of the 900 energies of a worker (C65) as a function of the spins after the warm-up, bounded by K + D; then as C134, with Hoeffding's inequality for one number per worker. The samples of one worker are not independent, so only the number of workers enters |
| C137 | `two_point_average`, `run_sim` (`simJob`), `log`, `update`, `new` | ℝ: as C134 with the product of two logged numbers of one run in the place of one of them; line M of each log is the only one after the first with a time below 1e-5 (C55). Without relaxation there is none, and C55 gives the panic |
| C138 | `run_sim_response` (`responseJob`), `average`, `log`, `update`, `update_no_field`, `new` | ℝ: as C134 with the passes of a response run in the place of updates: they are the flow in all fields up to time zero and then the flow without static fields, both volume-preserving, so almost all starts are regular for both (C86) and the logged numbers are bounded measurable functions of the start. (c), (d) from C123 |
| C139 | `Config.default` with `new`, `simJob`, `langevinJob`, `extJob` | ℝ: the defaults satisfy the hypotheses of C56, and the number of steps is computed. Added because edits that make the defaults unusable had broken only theorems which use them as a witness |

`_partial` marks theorems that cover only part of the English claim; the
missing part is said next to the theorem, and where the code violates the claim
the negation is proved with a concrete witness.

## Where the code does not do what a user would expect

All of these are theorems.

* C04: rotating in a zero field divides 0 by 0; the spin becomes NaN, and C64
  shows that NaN spreads to the whole chain and is never repaired.
* C07: `theta`/`phi` do not recover spins with x = 0 (atan(y/x)).
* C11, C13: degenerate draws, and beta = 0 always, give NaN spins.
* C15: `solve_beta(-1)` does not terminate.
* C19: `system_energy` omits the field on the last subsystem spin; for a subsystem of one site it is
  `0/0`, a `NaN` (`C19_one_site_nan`).
* C27: in a chain of odd length the last spin never moves; chains shorter than
  two spins panic (C25).
* C38, C39: the Magnus energies reported are not those that are sampled unless
  the x and y couplings agree; the rotating-frame energy counts corrections two
  or three times.  C40, C67: two of the Magnus samplers are not in detailed
  balance with any weight.
* C43: for odd length one Fourier mode is lost.
* C48: the Langevin Monte-Carlo sampler ignores the static field and uses a
  ring; C68: so does `boundary_term` with the static field.
* C51: debug builds panic on overflow, and the split is truncated beyond 2^32.
* C52: the written mean depends on arrival order in binary64; without runs it
  is NaN.  C53: rows can be lost or torn at exit.
* C54: the first line of every file is ignored.
* C57: stroboscopic logging writes every step of a relaxation period; it drifts
  away from the periods if the period is not a whole number of steps; and in
  binary64 (dt = 0.02, tau = 10) it logs step 501 instead of 500.
* C58: Monte-Carlo, ext and tau modes overwrite earlier logs.
* C60: overrides are ignored by some modes, replaced by others, and saved.
* C61: a missed checkpoint makes the writer wait for ever.
* C62: a configuration that is not text is overwritten by the defaults, also
  when another file name was requested.  README.md documents the key
  `drivetype`, which does not exist and is silently ignored.
* C63: rotation by very small or very large fields (2^-600, 2^600) gives NaN.
* C65: samples are taken one step late; C73, C78: relaxation shifts samples.
* C72: a chain with NaN energy is accepted as being in the energy shell.
* C74: sites 0 and hsize-1 are never written by `log_ext`.
* C75: the first row of a response run carries the time before the reset.
* C100: the "optimised" even fields of the benchmark ignore the drive, so the two timed variants compute different things; with fewer than two spins the original returns nothing and the other panics.
* C104: a period of zero is accepted; every energy and, after one update, every driven spin is NaN.
* C107: the Magnus sampler settles in one state, but not in the thermal state of the Magnus energy, with or without its `S^z` term.
* C108: a log file cut in the middle of a number is read as if it were complete, with a wrong number.
* C109: the update does not conserve the magnetisation exactly, even for isotropic chains without field.
* C111: `jvar` and `hvar`, documented as variances, are used as standard deviations.
* C112: the elliptic drive is not the documented one; with `staticfield` the field `hs` counts twice.
* C113: `--dynamic-histogram` and `--trajectory` do not write the files that the help text names; with `file = "evt"` log files overwrite results of `--n-steps`.
* C114: `method`, documented as the method of numerical integration, is read by nothing: every value gives the second-order decomposition.
* C116: `solve_beta` stops when successive values are within 0.01, which for energy densities near zero happens far from the solution: for -1/20 the clean chain has an energy density of -1/10 or less at the result.
* C118: `--fit-effective` and `--rot` fit the temperature with the field of the drive on the first `ssize` sites but measure with this field on all sites (`get_obsh` and `get_obs_rot` set `ssize = hsize`): different ensembles unless `ssize = hsize`.
* C119: the search of `--histogram` asks for a magnetisation below 0.003 in every component whatever the field is. In a field (the README's plots have one) the Monte-Carlo histogram is magnetised; along the field the dynamics conserves the magnetisation of the start, so the two histograms have different means (C119_negation, for the field (0,0,3)). On a ring of four sites without field there is no state of negative energy density without magnetisation, and the search never ends (C119_never_four).
* C120: `metropolis_update_magnus` has the prefactor `PI / tau` (which is ω/2) where its comment and the theory have 1/(2ω) = τ/(4π): the faster the drive, the larger the correction, and the energy it samples changes by δ/τ within a fixed time (C120_magnus_negation). With the prefactor of the comment the relative sign of the two terms is still that of a drive along −x at time zero, whereas `h_ext` begins along +x: the energy of the comments is the conserved one in the middle of the periods (C120_comment_half) and is off by first order at whole periods (C120_sign_negation). The first-order part of `metropolis_update_mag_full` has the right prefactor and the same sign (C120_mag_full). `metropolis_update_maglab` gives the field −1/(2ω) to the undriven spins as well (C120_maglab_negation).

## Checking the model against the code

`checks/float_replay.lean.txt` is not part of the proofs. It instantiates the model at Lean's `Float` (IEEE double) and prints the quantities that the unit tests in /repo assert (energy of new chains, precession without couplings, mean of the random fields, the two rotations, the energy at low temperature); copy it to a `.lean` file and run `lake env lean` on it from `lean/`. The values agree with those tests, the last one approximately: the replay makes fewer updates.

## Reach of the quantitative bounds

C126 to C134 and C136 to C138 give explicit numbers of updates, samples, points or runs. Their constants come from a comparison that loses a factor like exp(26 βK), where K bounds couplings and fields at a site (K is about √3 or more for the couplings of the program at λ = 1).

* They hold for all temperatures, but are of practical size only at high temperature. The examples beside the theorems of C134 use β = 1/1000.
* At the default β = 2.88 the hypotheses of C133 cannot be met by any number of points below 2^32, and the bound on what a warm-up of 20 million updates leaves of the start (C134, C136 to C138) exceeds one, so that the bound on the accuracy is empty there.
* They show that the procedures converge, and how; they do not certify the numbers of samples the program uses.
* C135 starts from new chains without warm-up and has no such factor.

## Testing the theorems against wrong programs

`seeded/LOG.jsonl` has one line per attempt. How to read it:

* Each attempt edits one definition of the model in a scratch copy. Proofs that no longer check are replaced by `sorry` there, and `theorems_failed` lists the property theorems that then depend on a `sorry`.
* So a theorem in this list either fails itself or rests on a lemma that does. The list shows that the proof does not survive the edit; it does not by itself show that the statement became false.
* Only the modules of the properties watched for an edit, and what they import, are rebuilt. A theorem missing from the list may not have been looked at.
* `watched_unaffected` lists properties that were watched and whose theorems still checked. Where there is a judgement on them it is in `note`; most were watched as a precaution and are about something else.
* Attempts which the procedure could not finish are marked `incomplete`; for these only the theorems that failed directly are listed.
