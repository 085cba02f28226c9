{"id": "C01", "title": "Rotation returns a unit spin", "statement": "Spin::rotate(field, dt) applied to any non-zero spin with any non-zero field and any dt returns a spin of Euclidean length exactly 1 (exact arithmetic).", "quantifier": "all spins, fields and time-steps", "why_tests_cant": "The doctests rotate two axis-aligned spins; the claim ranges over a continuum of directions, fields and angles.", "anchors": ["src/spin.rs: Spin::rotate (172-195)"]}
{"id": "C02", "title": "Rotation is the exact precession flow dS/dt = S x field", "statement": "As a function of dt, Spin::rotate(field, dt) starts at the spin itself (dt=0, unit spin) and at every dt has derivative S(dt) x field; in particular it conserves the component of the spin along the field.", "quantifier": "all unit spins, non-zero fields, all dt", "why_tests_cant": "A differential equation at every point of a trajectory cannot be observed by sampling; a sign or axis error can agree with the tests' axis-aligned cases.", "anchors": ["src/spin.rs: Spin::rotate (172-195)"]}
{"id": "C03", "title": "Rotations about one field compose and invert", "statement": "Rotating by dt1 and then by dt2 about the same field equals rotating once by dt1+dt2, and rotating by -dt undoes rotating by dt.", "quantifier": "all unit spins, non-zero fields, all pairs of time-steps", "why_tests_cant": "Group laws quantify over pairs of reals.", "anchors": ["src/spin.rs: Spin::rotate (172-195)"]}
{"id": "C04", "title": "Rotation is finite for every field, including the zero field", "statement": "A spin in a zero field must stay a finite unit vector. (The code violates this: a zero field divides 0 by 0 and every component becomes NaN.)", "quantifier": "all spins and fields, including the exceptional point field = 0", "why_tests_cant": "No test passes a zero field; the failure sits at a single point of a continuum of inputs and reaches the chain only when the local field cancels exactly.", "anchors": ["src/spin.rs: Spin::rotate (172-195)", "src/spinchain.rs: SpinChain::rotate_even (1802-1806)", "src/spinchain.rs: SpinChain::rotate_odd (1810-1815)"]}
{"id": "C05", "title": "new_xyz normalises and is scale invariant", "statement": "Spin::new_xyz on any non-zero triple returns the unit vector in that direction, and gives the same spin for every positive multiple of the triple; slices shorter than three panic.", "quantifier": "all input slices", "why_tests_cant": "The doctest compares two literals.", "anchors": ["src/spin.rs: Spin::new_xyz (39-44)"]}
{"id": "C06", "title": "Angle constructors give unit spins", "statement": "Spin::new_from_angles and Spin::set_angles give a unit spin for every pair of angles, and agree with each other whatever the previous direction was.", "quantifier": "all angles and previous spins", "why_tests_cant": "Continuum of angles.", "anchors": ["src/spin.rs: Spin::new_from_angles (57-61)", "src/spin.rs: Spin::set_angles (150-152)"]}
{"id": "C07", "title": "theta/phi recover the direction", "statement": "For every unit spin, new_from_angles(s.theta(), s.phi()) is s again. (Holds when the x component is non-zero; the code violates it on the x = 0 great circle.)", "quantifier": "all unit spins, both hemispheres, and the boundary x = 0", "why_tests_cant": "Branch on the sign of x: the wrong boundary is a measure-zero set that random tests never hit.", "anchors": ["src/spin.rs: Spin::theta (135-141)", "src/spin.rs: Spin::phi (143-145)", "src/spin.rs: Spin::new_from_angles (57-61)"]}
{"id": "C08", "title": "Gram-Schmidt gives a unit vector orthogonal to the first argument", "statement": "Spin::gs(old, perp) is a unit vector orthogonal to old, lying in the plane spanned by old and perp on the side of perp, whenever old and perp are linearly independent.", "quantifier": "all pairs of linearly independent vectors, normalised or not", "why_tests_cant": "The two doctests use one pair each.", "anchors": ["src/spin.rs: Spin::gs (84-95)"]}
{"id": "C09", "title": "rot_perp turns the direction by exactly the requested angle, about the given direction", "statement": "With p the unit vector perpendicular to the original direction in the half-plane of rot_dir, the direction returned by Spin::rot_perp([theta,phi], rot_dir, a) is cos(a) old + sin(a) (p x old): the right-handed turn by a about p, making an inner product cos(a) with the original direction, for any rot_dir not parallel to it (result off the x = 0 circle).", "quantifier": "all angles, rotation directions and rotation angles", "why_tests_cant": "Composition of four functions over a continuum.", "anchors": ["src/spin.rs: Spin::rot_perp (97-133)"]}
{"id": "C10", "title": "Spin equality is a tolerance relation", "statement": "Spin == is reflexive and symmetric and holds exactly when every component differs by less than 0.001; it is not transitive, so it must not be used as an equivalence.", "quantifier": "all pairs and triples of spins", "why_tests_cant": "Needs all pairs; non-transitivity needs a chain of three spins.", "anchors": ["src/spin.rs: PartialEq for Spin"]}
{"id": "C11", "title": "A new chain is well formed", "statement": "SpinChain::new(conf, num) with hsize >= 0, three-component fields and finite variances never panics and returns hsize spins, hsize couplings, hsize fields, time -trel, the configuration unchanged and a log file named <file><num>.dat exactly when logging is on; every spin is a unit vector unless a sampled direction is degenerate.", "quantifier": "all configurations, run numbers and random draws", "why_tests_cant": "Every random draw sequence and every size must be covered.", "anchors": ["src/spinchain.rs: SpinChain::new (123-218)"]}
{"id": "C12", "title": "Couplings and fields follow the configuration", "statement": "In a new chain coupling i is (1,1,lambda) plus jvar times independent normal draws, and the static field at site i is hfield, plus hs exactly when i < ssize, plus hvar times normal draws; each draw is used once.", "quantifier": "all configurations, sites and draws", "why_tests_cant": "The subsystem boundary i < ssize must be right for every size.", "anchors": ["src/spinchain.rs: SpinChain::new (123-218)"]}
{"id": "C13", "title": "Initial neighbour angles follow the Boltzmann law", "statement": "In a new chain the inner product of neighbouring spins is ln(e^b - u (e^b - e^-b))/b for the draw u, it lies in [-1,1], and it is the exact inverse-transform sample of the density proportional to e^(b c) on [-1,1].", "quantifier": "all inverse temperatures b != 0 and all draws u in [0,1), all sites", "why_tests_cant": "A distributional law over all draws cannot be established by averaging ten chains.", "anchors": ["src/spinchain.rs: SpinChain::new (123-218)", "src/spin.rs: Spin::rot_perp (97-133)"]}
{"id": "C14", "title": "Mean initial energy density matches the target", "statement": "The mean over uniform draws of the neighbour inner product of a new chain is coth(beta) - 1/beta, so the clean zero-field chain has mean bond energy 1/beta - coth(beta), the quantity solve_beta inverts.", "quantifier": "all beta > 0", "why_tests_cant": "The shipped test averages ten random chains at one temperature with 2% tolerance.", "anchors": ["src/spinchain.rs: SpinChain::new (123-218)", "src/spinchain.rs: SpinChain::solve_beta (107-116)"]}
{"id": "C15", "title": "solve_beta terminates and solves its equation", "statement": "For every energy density e > -1 solve_beta terminates and returns beta > 0 such that 1/beta = e + coth(beta') for some beta' within 0.01 of beta.", "quantifier": "all energy densities e > -1", "why_tests_cant": "Termination of a real iteration for all inputs.", "anchors": ["src/spinchain.rs: SpinChain::solve_beta (107-116)"]}
{"id": "C16", "title": "total_energy2 is the documented Hamiltonian per site", "statement": "total_energy2 returns (1/L) sum_j ( - S_j J_j S_{j+1} + B_j . S_j ) with periodic boundary, where B_j is the static field plus the current driving field on the first ssize sites only.", "quantifier": "all chains, sizes L >= 1, subsystem sizes, drives and times", "why_tests_cant": "Boundary and subsystem indices must be right for every size.", "anchors": ["src/spinchain.rs: SpinChain::total_energy2 (1264-1293)", "README.md"]}
{"id": "C17", "title": "The two total energy routines agree", "statement": "total_energy and total_energy2 return the same value on every chain with 0 <= ssize <= hsize.", "quantifier": "all chains", "why_tests_cant": "Equality of two differently organised loops on all inputs.", "anchors": ["src/spinchain.rs: SpinChain::total_energy (1297-1342)", "src/spinchain.rs: SpinChain::total_energy2 (1264-1293)"]}
{"id": "C18", "title": "mc_total_energy is the undriven Hamiltonian", "statement": "mc_total_energy equals total_energy2 of the same chain with the drive switched off, whatever the time and drive of the chain.", "quantifier": "all chains", "why_tests_cant": "All sizes, drives, times.", "anchors": ["src/spinchain.rs: SpinChain::mc_total_energy (1441-1465)"]}
{"id": "C19", "title": "system_energy is the energy density of the driven subsystem", "statement": "system_energy should be the energy of the first ssize spins with open boundary (all ssize-1 inner bonds and the field on all ssize spins), divided by the ssize-1 bonds. (The code drops the field term of the last subsystem spin; for a subsystem of one site it divides by zero and returns NaN.)", "quantifier": "all chains with 2 <= ssize <= hsize", "why_tests_cant": "An off-by-one in a sum hidden by the default zero field.", "anchors": ["src/spinchain.rs: SpinChain::system_energy (1415-1439)"]}
{"id": "C20", "title": "mc_system_energy closes the subsystem into a ring", "statement": "mc_system_energy is the undriven Hamiltonian per site of the ring formed by the first ssize spins and couplings, and coincides with mc_total_energy when ssize = hsize.", "quantifier": "all chains with 1 <= ssize <= hsize", "why_tests_cant": "All sizes.", "anchors": ["src/spinchain.rs: SpinChain::mc_system_energy (1660-1684)"]}
{"id": "C21", "title": "Magnetisation is the exact vector sum and is bounded", "statement": "m returns the sum of the first ssize spins and m_tot of all hsize spins; for unit spins the lengths are at most ssize and hsize; asking for more spins than exist panics.", "quantifier": "all chains", "why_tests_cant": "All sizes.", "anchors": ["src/spinchain.rs: SpinChain::m (1687-1697)", "src/spinchain.rs: SpinChain::m_tot (1699-1709)"]}
{"id": "C22", "title": "Every history of time-steps keeps every spin a unit vector", "statement": "After any number of update calls every spin of the chain is a unit vector, provided no local field vanishes on the way.", "quantifier": "all chains, drives and histories of updates", "why_tests_cant": "Drift over arbitrarily long runs cannot be bounded by a finite run.", "anchors": ["src/spinchain.rs: SpinChain::update (1774-1798)", "src/spinchain.rs: SpinChain::rotate_even (1802-1806)", "src/spinchain.rs: SpinChain::rotate_odd (1810-1815)"]}
{"id": "C23", "title": "Time evolution conserves total energy for a time-independent field", "statement": "With a constant or absent drive, total_energy is exactly the same before and after any number of update calls on a chain of even length.", "quantifier": "all chains of even length, all histories of updates, any time-step size", "why_tests_cant": "An exact invariant over unbounded histories; tests only see approximate values for a few steps.", "anchors": ["src/spinchain.rs: SpinChain::update (1774-1798)", "src/spinchain.rs: SpinChain::even_omega (1829-1849)", "src/spinchain.rs: SpinChain::odd_omega (1850-1870)"]}
{"id": "C24", "title": "Time evolution is reversible", "statement": "Calling update n times, flipping the sign of dt, and calling update n times again returns every spin and the time to their previous values, for every drive.", "quantifier": "all chains of at least two unit spins, drives, times, step sizes, numbers of steps; no local field met on the way vanishes", "why_tests_cant": "Continuum of states and times.", "anchors": ["src/spinchain.rs: SpinChain::update (1774-1798)"]}
{"id": "C25", "title": "update touches only spins and time", "statement": "Any number n of update calls advances time by exactly n*dt and leaves couplings, static fields, configuration and log file untouched; the number of spins never changes.", "quantifier": "all chains, histories, any arithmetic", "why_tests_cant": "Frame conditions over histories.", "anchors": ["src/spinchain.rs: SpinChain::update (1774-1798)"]}
{"id": "C26", "title": "Information spreads at most three sites per time-step", "statement": "After one update, the spin at site i depends only on the initial spins within cyclic distance 3 of i (2 for odd sites), whatever happens elsewhere.", "quantifier": "all chains, all perturbations outside the window, any arithmetic including f64", "why_tests_cant": "Universally quantified non-interference.", "anchors": ["src/spinchain.rs: SpinChain::update (1774-1798)", "src/spinchain.rs: SpinChain::even_omega (1829-1849)", "src/spinchain.rs: SpinChain::odd_omega (1850-1870)"]}
{"id": "C27", "title": "Every site is driven by its documented local field", "statement": "The field used to rotate site n is J_{n-1} S_{n-1} + J_n S_{n+1} - B_n with periodic indices, for every site of the chain. (Holds for even length; for odd length the last spin is never rotated.)", "quantifier": "all chain lengths and sites", "why_tests_cant": "Indices at both ends, all lengths; tests only use length 512.", "anchors": ["src/spinchain.rs: SpinChain::even_omega (1829-1849)", "src/spinchain.rs: SpinChain::odd_omega (1850-1870)"]}
{"id": "C28", "title": "The local field is minus the energy gradient", "statement": "Replacing spin n of an even chain by any vector changes the total Hamiltonian by exactly - Omega_n . (new - old), where Omega_n is the field the integrator uses for that site.", "quantifier": "all even chains, sites, replacement vectors", "why_tests_cant": "Links two independently written pieces of code for all inputs.", "anchors": ["src/spinchain.rs: SpinChain::even_omega (1829-1849)", "src/spinchain.rs: SpinChain::odd_omega (1850-1870)", "src/spinchain.rs: SpinChain::total_energy2 (1264-1293)"]}
{"id": "C29", "title": "The integrator is consistent with the equations of motion", "statement": "The derivative of the updated spin n with respect to dt at dt = 0 is S_n x Omega_n at the current time, for every site, provided no local field of the current state vanishes.", "quantifier": "all even chains, sites, drives", "why_tests_cant": "A limit statement.", "anchors": ["src/spinchain.rs: SpinChain::update (1774-1798)"]}
{"id": "C30", "title": "Uncoupled spins precess exactly", "statement": "With all couplings zero and no drive, k updates turn each spin by exactly k*dt about minus its static field.", "quantifier": "all even chains, static fields, numbers of steps", "why_tests_cant": "Generalises the shipped interactions_off test (one field, 100 steps, tolerance 1e-3).", "anchors": ["src/spinchain.rs: SpinChain::update (1774-1798)"]}
{"id": "C31", "title": "update_no_field drops the static field only", "statement": "update_no_field evolves the spins exactly as update would with all static fields set to zero: the driving field stays on.", "quantifier": "all chains", "why_tests_cant": "The name suggests otherwise; equality must hold on all inputs.", "anchors": ["src/spinchain.rs: SpinChain::update_no_field (1747-1771)"]}
{"id": "C32", "title": "Driving field: period, size and derivative", "statement": "The driving field repeats after tau, has components of size at most 1 (and |e| for the elliptic y component), is zero for drive none, is constant hs for staticfield, and its time derivative is 2 pi/tau times the function used for the derivative.", "quantifier": "all times, periods tau != 0, drive types", "why_tests_cant": "Continuum of times.", "anchors": ["src/spinchain.rs: SpinChain::h_ext (1712-1740)", "src/spinchain.rs: SpinChain::h_extp (1385-1412)", "src/spinchain_langevin.rs: SpinChainLangevin::h_ext (632-660)", "src/spinchain_langevin.rs: SpinChainLangevin::h_extp (663-690)"]}
{"id": "C33", "title": "Rotations of one sublattice commute", "statement": "The result of rotating all even (or all odd) sites does not depend on the order in which sites are visited.", "quantifier": "all chains, fields, visiting orders, any arithmetic including f64", "why_tests_cant": "All permutations.", "anchors": ["src/spinchain.rs: SpinChain::rotate_even (1802-1806)", "src/spinchain.rs: SpinChain::rotate_odd (1810-1815)"]}
{"id": "C34", "title": "Metropolis updates touch at most one spin and keep it a unit vector", "statement": "Any sequence of metropolis updates (all five kinds, in any order) leaves couplings, fields, time, configuration and chain length unchanged, changes at most one spin per call, and keeps all spins unit vectors.", "quantifier": "all chains with hsize >= 2, all histories and random draws", "why_tests_cant": "Histories of random updates.", "anchors": ["src/spinchain.rs: SpinChain::metropolis_update (438-494)", "src/spinchain.rs: SpinChain::metropolis_update_maglab (219-283)", "src/spinchain.rs: SpinChain::metropolis_update_rot_magnus (287-429)", "src/spinchain.rs: SpinChain::metropolis_update_mag_full (506-937)", "src/spinchain.rs: SpinChain::metropolis_update_magnus (939-1069)"]}
{"id": "C35", "title": "Metropolis uses the true energy difference", "statement": "The energy difference used by metropolis_update to accept or reject equals hsize times the change of mc_total_energy that accepting would cause, for every site including both ends.", "quantifier": "all chains with hsize >= 2, sites and proposed spins", "why_tests_cant": "Periodic neighbours at both ends for all sizes.", "anchors": ["src/spinchain.rs: SpinChain::metropolis_update (438-494)", "src/spinchain.rs: SpinChain::mc_total_energy (1441-1465)"]}
{"id": "C36", "title": "Metropolis acceptance satisfies detailed balance", "statement": "For beta >= 0 the set of uniform draws that accept a move of energy difference dE has measure min(1, e^(-beta dE)), and hence Boltzmann weight times acceptance is symmetric between a state and the proposed state.", "quantifier": "all beta >= 0, states and proposals", "why_tests_cant": "A probability statement over all draws.", "anchors": ["src/spinchain.rs: SpinChain::metropolis_update (438-494)"]}
{"id": "C37", "title": "Proposed spins are uniform on the sphere", "statement": "The proposed spin has z component 1 - 2 u2, azimuth 2 pi u1 and unit length: the area-preserving parametrisation of the sphere.", "quantifier": "all draws in [0,1)", "why_tests_cant": "Distributional.", "anchors": ["src/spinchain.rs: SpinChain::metropolis_update (438-494)"]}
{"id": "C38", "title": "Lab-frame Magnus sampling matches the energy it reports", "statement": "The energy difference used by metropolis_update_maglab should equal hsize times the change of mc_system_energy_maglab. (True when the x and y couplings agree; the code omits the anisotropy correction from the sampler.)", "quantifier": "all chains with hsize >= 3", "why_tests_cant": "Two independently written energy functions.", "anchors": ["src/spinchain.rs: SpinChain::metropolis_update_maglab (219-283)", "src/spinchain.rs: SpinChain::mc_system_energy_maglab (1466-1558)"]}
{"id": "C39", "title": "Rotating-frame Magnus sampling matches the energy it reports", "statement": "The energy difference used by metropolis_update_rot_magnus should equal hsize times the change of mc_system_energy_rot. (The code's energy counts every two-spin correction twice and every three-spin correction three times.)", "quantifier": "all chains with hsize >= 3", "why_tests_cant": "Cyclic multi-site sums for all sizes.", "anchors": ["src/spinchain.rs: SpinChain::metropolis_update_rot_magnus (287-429)", "src/spinchain.rs: SpinChain::mc_system_energy_rot (1560-1658)"]}
{"id": "C40", "title": "First-order Magnus sampling uses the true energy difference", "statement": "metropolis_update_magnus should use the change of the first-order Magnus energy under the proposed move. (The code evaluates the S^z term with the old spin on both sides, so that term never contributes.)", "quantifier": "all chains and proposals", "why_tests_cant": "Copy-paste error invisible at the level of averages.", "anchors": ["src/spinchain.rs: SpinChain::metropolis_update_magnus (939-1069)", "src/spinchain_langevin.rs: SpinChainLangevin::metropolis_update_magnus (274-405)"]}
{"id": "C41", "title": "Second-order Magnus sampling is antisymmetric", "statement": "In metropolis_update_mag_full the energies before and after the move are values of one and the same function of the central spin, so the energy difference of a move is minus that of the reverse move and is zero for the trivial move.", "quantifier": "all chains with hsize >= 3 (with two spins the second neighbour is the site itself), sites, proposals", "why_tests_cant": "Two 200-line expressions written out twice.", "anchors": ["src/spinchain.rs: SpinChain::metropolis_update_mag_full (506-937)"]}
{"id": "C42", "title": "log writes one 13-column row and changes nothing", "statement": "For 1 <= ssize <= hsize, log does not panic, leaves the chain unchanged and writes exactly one row: time, total energy, subsystem energy, subsystem magnetisation per site (3), total m_z per site, and the spins at sites floor(ssize/4) and floor(3 ssize/4); with logging off nothing is written.", "quantifier": "all chains", "why_tests_cant": "All sizes; index truncation.", "anchors": ["src/spinchain.rs: SpinChain::log (1112-1151)"]}
{"id": "C43", "title": "energy_spectrum is the centred power spectrum", "statement": "For even length the spectrum is a permutation of the powers of all Fourier modes, centred on mode 0, so its sum is L times the sum of squared spin lengths. (For odd length one mode is lost.)", "quantifier": "all chains, all lengths", "why_tests_cant": "Index shift correctness for all lengths, both parities.", "anchors": ["src/spinchain.rs: SpinChain::energy_spectrum (1155-1217)"]}
{"id": "C44", "title": "Langevin steps keep spins unit vectors for any noise", "statement": "After any number of Langevin updates with any noise draws every spin is a unit vector, provided no local field vanishes.", "quantifier": "all chains, noise histories", "why_tests_cant": "All noise histories.", "anchors": ["src/spinchain_langevin.rs: SpinChainLangevin::update (697-747)"]}
{"id": "C45", "title": "Langevin damping lowers the edge energy", "statement": "With the noise switched off, the rate of change of the edge spin's energy -S.Omega at the start of a step is -gamma(|S|^2|Omega|^2 - (S.Omega)^2) <= 0 for gamma >= 0.", "quantifier": "all edge spins, local fields, gamma", "why_tests_cant": "A derivative with a sign for all inputs.", "anchors": ["src/spinchain_langevin.rs: SpinChainLangevin::even_omega (781-816)", "src/spinchain_langevin.rs: SpinChainLangevin::odd_omega (817-849)", "src/spinchain_langevin.rs: SpinChainLangevin::cross (773-779)"]}
{"id": "C46", "title": "Undamped Langevin dynamics conserves the open-chain energy", "statement": "With gamma = 0 and a time-independent field, any number of Langevin updates conserves the open-boundary energy exactly, whatever the noise draws.", "quantifier": "all even chains, noise draws, histories", "why_tests_cant": "Exact invariant over histories.", "anchors": ["src/spinchain_langevin.rs: SpinChainLangevin::update (697-747)"]}
{"id": "C47", "title": "The Langevin chain is open", "statement": "A Langevin update never depends on the coupling that would close the chain into a ring.", "quantifier": "all chains, any arithmetic", "why_tests_cant": "Non-interference.", "anchors": ["src/spinchain_langevin.rs: SpinChainLangevin::even_omega (781-816)", "src/spinchain_langevin.rs: SpinChainLangevin::odd_omega (817-849)"]}
{"id": "C48", "title": "Langevin Monte-Carlo samples the Hamiltonian of the dynamics", "statement": "SpinChainLangevin::metropolis_update should sample the Hamiltonian of the Langevin dynamics: the energy of the open chain including its static field. (The code ignores the static field and couples the two end spins.)", "quantifier": "all chains, proposals", "why_tests_cant": "Invisible with the default zero field.", "anchors": ["src/spinchain_langevin.rs: SpinChainLangevin::metropolis_update (208-262)"]}
{"id": "C49", "title": "Temperature bisection always terminates inside its bracket", "statement": "find_beta and its variants perform exactly 13 halvings for any estimator results (including noise or NaN), return a value inside the initial bracket, and leave a final bracket not wider than 0.001.", "quantifier": "all sequences of estimator results", "why_tests_cant": "The estimator is random: all outcomes must be covered.", "anchors": ["src/obs.rs: find_beta (243-277)", "src/obs.rs: find_beta2 (136-169)", "src/obs.rs: find_betah (101-134)", "src/obs.rs: find_beta_rot (207-241)", "src/obs.rs: find_beta_maglab (171-205)"]}
{"id": "C50", "title": "Temperature bisection is accurate for a decreasing energy", "statement": "If the estimator is a decreasing function whose value at some beta* in the bracket is the target, the result is within 0.0005 of beta*.", "quantifier": "all strictly decreasing functions and targets", "why_tests_cant": "All functions.", "anchors": ["src/obs.rs: find_beta (243-277)", "src/obs.rs: find_beta2 (136-169)", "src/obs.rs: find_betah (101-134)", "src/obs.rs: find_beta_rot (207-241)", "src/obs.rs: find_beta_maglab (171-205)"]}
{"id": "C51", "title": "Monte-Carlo work split adds up", "statement": "In run_mc, run_mc_profile and run_mc_magnus the per-thread point counts are each at least one and add up to exactly mc_points, for every thread count >= 1 and mc_points < 2^31 (in release builds < 2^32); zero of either panics. (Debug builds panic on overflow from 2^31 on; beyond 2^32 points the counts are truncated.)", "quantifier": "all thread counts and mc_points", "why_tests_cant": "Integer division remainder for all pairs, u32 arithmetic.", "anchors": ["src/obs.rs: run_mc (1703-1792)", "src/obs.rs: run_mc_profile (1603-1701)", "src/obs.rs: run_mc_magnus (1512-1601)"]}
{"id": "C52", "title": "Profile aggregation is independent of thread interleaving", "statement": "In exact arithmetic the averages written by profile_in_bg do not depend on the order in which the workers' rows arrive, and are per-site arithmetic means when each site gets exactly pts rows. (In floating point the order shows in the last digits; without runs the means are NaN; with a message missing the writer never finishes.)", "quantifier": "all interleavings of all worker streams", "why_tests_cant": "All schedules.", "anchors": ["src/writers.rs: profile_in_bg (11-48)", "src/obs.rs: run_mc_profile (1603-1701)", "src/obs.rs: run_dyn_profile (1078-1259)"]}
{"id": "C53", "title": "Background writer writes a prefix of what was sent, in order", "statement": "At every moment, and if the program exits at any point, the file holds an in-order prefix of the rows received on the channel. (Nothing waits for the writer, so the last rows can be lost at exit.)", "quantifier": "all schedules and exit points", "why_tests_cant": "All interleavings and crash points.", "anchors": ["src/writers.rs: write_in_bg (3-9)", "src/obs.rs: run_mc (1703-1792)", "src/obs.rs: gen_hist_dynamics (605-671)", "src/obs.rs: run_tau (794-876)"]}
{"id": "C54", "title": "Averaging never indexes out of range and computes line-wise means", "statement": "average never panics on parsed data of any shape (unless t/dt is so large that its storage cannot be allocated), and the i-th output line is the column-wise mean of the (i+1)-th lines of the files that have one, over the columns they share, independent of the order of the files. The first line of each file is ignored.", "quantifier": "all collections of files with any numbers of lines and columns", "why_tests_cant": "All shapes and orders of files.", "anchors": ["src/obs.rs: average (1436-1510)"]}
{"id": "C55", "title": "Two-point averages need a time-zero row after the first line", "statement": "two_point_average on a file whose rows after the first have no time within 1e-5 of zero panics as soon as a row has two columns; otherwise the output is the mean of x(t) x(0).", "quantifier": "all collections of files", "why_tests_cant": "All shapes.", "anchors": ["src/obs.rs: two_point_average (1326-1434)"]}
{"id": "C56", "title": "A run makes the right number of steps and rows", "statement": "The main loop of run_sim performs the least number n of updates with -trel + n dt >= t, and without stroboscopic logging writes n+1 rows.", "quantifier": "all dt > 0, trel, t", "why_tests_cant": "All step sizes.", "anchors": ["src/obs.rs: run_sim (1013-1076)"]}
{"id": "C57", "title": "Stroboscopic logging records whole periods only", "statement": "With strob on, rows should be written exactly at multiples of the drive period. (At negative times the saturating cast logs every step.)", "quantifier": "all dt, tau, trel", "why_tests_cant": "All step sizes and negative times.", "anchors": ["src/obs.rs: run_sim (1013-1076)", "src/obs.rs: run_ext (1261-1324)", "src/obs.rs: run_langevin (878-940)"]}
{"id": "C58", "title": "Runs never overwrite earlier logs", "statement": "Any sequence of simulations (default, response, dynamic profile, Langevin) started from the saved configuration creates log files with increasing numbers, so none is created twice and older logs stay untouched, as long as the numbers fit into 32 bits. (Other modes break this: Monte-Carlo sampling reuses numbers from zero, --ext with --response uses the same numbers twice, --n-steps does not advance the offset.)", "quantifier": "all sequences of program invocations", "why_tests_cant": "Histories of invocations.", "anchors": ["src/obs.rs: run_sim (1013-1076)", "src/obs.rs: run_mc (1703-1792)", "src/spinchain.rs: SpinChain::new (123-218)"]}
{"id": "C59", "title": "Mode selection", "statement": "The default simulation runs exactly when no mode option is given; the selected modes run once each, in a fixed order.", "quantifier": "all combinations of command-line options", "why_tests_cant": "2^n option combinations.", "anchors": ["src/main.rs: main (139-470)"]}
{"id": "C60", "title": "Command-line overrides and the saved configuration", "statement": "The tau and beta overrides should apply to every selected mode and only to this invocation. (The beta override is ignored by the early modes, and overrides are written back to config.toml.)", "quantifier": "all combinations of options", "why_tests_cant": "All combinations.", "anchors": ["src/main.rs: main (139-470)", "src/obs.rs: run_sim (1013-1076)", "src/obs.rs: run_langevin (878-940)"]}
{"id": "C61", "title": "Dynamic profile checkpoints are hit exactly once", "statement": "Each of the eight checkpoints of run_dyn_profile is recorded at most once per run, and exactly once when tau/dt is a whole number and trel is a whole number of steps; if any run misses a checkpoint the writer of that checkpoint, and with it the program, never finishes.", "quantifier": "all dt, tau, trel", "why_tests_cant": "All step sizes; a hang is not testable.", "anchors": ["src/obs.rs: run_dyn_profile (1078-1259)", "src/writers.rs: profile_in_bg (11-48)"]}
{"id": "C62", "title": "Missing configuration falls back to defaults", "statement": "read_config returns the parsed file (each missing key taking its default, unknown keys being ignored), or, if the file cannot be read, the defaults after writing them to config.toml, so that the next read of config.toml gives the same configuration; a configuration saved by the program is read back unchanged; a file is accepted exactly when every value for a known key has the type and range of that key (numbers need no decimal point, the drive is one of five names), and otherwise the program panics and writes nothing. (A config.toml that is not UTF-8 text counts as missing and is overwritten. The documented key drivetype does not exist: it is ignored, and the drive stays the rotating one.)", "quantifier": "all file system contents", "why_tests_cant": "All file contents.", "anchors": ["src/spinchain.rs: SpinChain::read_config (82-105)", "src/config.rs: Config, DriveType, Config::default", "README.md: Configuration features"]}
{"id": "C63", "title": "Rounding does not accumulate in the spin length", "statement": "In IEEE binary64 with an accurate mathematics library the length of a rotated spin is within 2^-49 of 1, however many rotations came before, as long as fields and time-steps are of moderate size (2^-450 to 2^450); a chain with static fields along z larger than its couplings stays that close to unit length for ever. Outside that range (2^-600, 2^600) a rotation turns a spin into NaN although the field is neither zero nor infinite.", "quantifier": "all spins, fields, time-steps, histories, chains with dominating z fields, all mathematics libraries whose square root is within half an ulp and whose sine and cosine are within 2^-30", "why_tests_cant": "Error accumulation over unbounded histories.", "anchors": ["src/spin.rs: Spin::rotate (172-195)"]}
{"id": "C64", "title": "A non-finite spin is never repaired", "statement": "Once a component of a spin is NaN, the whole spin and its neighbours are NaN after the next time-step, the NaN spreads by one site per step in both directions, after at most half the chain length of steps all moving spins are NaN, and no later update makes any of them a number again.", "quantifier": "all chains, all positions of the NaN, all histories, all mathematics libraries", "why_tests_cant": "Histories.", "anchors": ["src/spin.rs: Spin::rotate (172-195)", "src/spinchain.rs: SpinChain::update (1774-1798)"]}
{"id": "C65", "title": "trajectory_mean_e averages the late periods", "statement": "Each run contributes one energy sample per drive period from period 100 to 999 when tau/dt is a whole number; the result is the mean of all samples in whatever order they arrive. If tau < dt no sample is taken: the worker panics (or makes no step at all if dt > 1000 tau), and the mean of no samples is NaN.", "quantifier": "all tau, dt", "why_tests_cant": "All step sizes.", "anchors": ["src/obs.rs: trajectory_mean_e (477-539)"]}
{"id": "C66", "title": "run_tau resolves every drive period", "statement": "run_tau uses a time-step of at most a hundredth of the period below tau = 10 and 0.1 otherwise, so that every period has at least 100 steps, and ends at the first step at or after steps*tau.", "quantifier": "all periods and step counts", "why_tests_cant": "All periods.", "anchors": ["src/obs.rs: run_tau (794-876)"]}
{"id": "C67", "title": "Every Metropolis sampler is in detailed balance with some distribution", "statement": "For each of the five Metropolis updates there is a positive weight on configurations such that weight times acceptance probability is symmetric for every single-spin move, so that the sampler can have a stationary distribution of Boltzmann form. (Holds for metropolis_update, metropolis_update_maglab and metropolis_update_rot_magnus; fails for metropolis_update_magnus at the boundary of the driven region and for metropolis_update_mag_full even when all sites are driven.)", "quantifier": "all chains with hsize >= 3, all beta >= 0, all single-spin moves", "why_tests_cant": "A statement about probabilities of all moves around every closed loop of configurations, and about all possible weights.", "anchors": ["src/spinchain.rs: SpinChain::metropolis_update (438-494)", "src/spinchain.rs: SpinChain::metropolis_update_maglab (219-283)", "src/spinchain.rs: SpinChain::metropolis_update_rot_magnus (287-429)", "src/spinchain.rs: SpinChain::metropolis_update_magnus (939-1069)", "src/spinchain.rs: SpinChain::metropolis_update_mag_full (506-937)"]}
{"id": "C68", "title": "The Langevin boundary term is the rate at which the chain's energy changes", "statement": "The last column of a Langevin log row equals the rate of change of the energy of the open chain under noise-free updates as the time-step tends to zero, plus the mean contribution of the noise, (2 gamma / beta) times the sum over both edge spins of spin dotted with local field.", "quantifier": "all Langevin chains of even length whose whole length is driven (ssize = hsize), all drives, couplings and fields, gamma >= 0, beta > 0, no vanishing local field", "why_tests_cant": "It relates a logged number to a limit of the dynamics over all small time-steps; a finite number of runs gives finite differences only.", "anchors": ["src/spinchain_langevin.rs: SpinChainLangevin::boundary_term (543-576)", "src/spinchain_langevin.rs: SpinChainLangevin::log (407-433)", "src/spinchain_langevin.rs: SpinChainLangevin::update (697-747)"]}
{"id": "C69", "title": "Content of a Langevin log row", "statement": "Every row of a Langevin log consists of exactly eight numbers: the time, the system energy per bond twice, the three components of the mean magnetisation of the driven part, the mean z magnetisation of the whole chain, and the boundary term.", "quantifier": "all Langevin chains with 2 <= ssize <= hsize", "why_tests_cant": "It must hold in every state the dynamics can reach, for every size.", "anchors": ["src/spinchain_langevin.rs: SpinChainLangevin::log (407-433)", "src/spinchain_langevin.rs: SpinChainLangevin::m (606-616)", "src/spinchain_langevin.rs: SpinChainLangevin::m_tot (619-629)", "src/spinchain_langevin.rs: SpinChainLangevin::system_energy (579-603)", "src/spinchain_langevin.rs: SpinChainLangevin::boundary_term (543-576)"]}
{"id": "C70", "title": "Temperature search tolerates noisy estimates", "statement": "If every energy estimate is within delta of a continuous function of beta whose values at the two ends of the bracket enclose the target up to delta, the search returns a beta within 0.0005 of a temperature at which that function equals the target up to delta; no monotonicity is needed.", "quantifier": "all continuous energy functions, noise bounds, targets and noise realisations", "why_tests_cant": "The noise is a function of every call; a test can try a few noise sequences and a few energy curves only.", "anchors": ["src/obs.rs: find_beta (243-277)", "src/obs.rs: find_beta2 (136-169)", "src/obs.rs: find_betah (101-134)"]}
{"id": "C71", "title": "Monte-Carlo estimates are means over the chains visited", "statement": "Each energy estimate and each observable returned by the get_obs family is the arithmetic mean, over exactly 1000 (8000) samples, of the documented energy (magnetisation) of the chains visited at the requested temperature, starting from a new chain with a fixed number of updates between samples; estimates of the chain energy never leave the range of energies unit spins can have.", "quantifier": "all valid configurations, temperatures and random numbers", "why_tests_cant": "Means over millions of random updates have no closed expected value; an off-by-one in the sample count or a wrong normalisation hides in statistical noise.", "anchors": ["src/obs.rs: estim_e (3-20)", "src/obs.rs: estim_e2 (59-78)", "src/obs.rs: estim_eh (79-99)", "src/obs.rs: estim_e_rot (41-58)", "src/obs.rs: estim_e_maglab (22-39)", "src/obs.rs: get_obs (378-408)", "src/obs.rs: get_obsh (347-376)", "src/obs.rs: get_obs_rot (313-345)", "src/obs.rs: get_obs_maglab (279-310)"]}
{"id": "C72", "title": "Dynamic histogram starts in the requested energy shell", "statement": "When the rejection search of gen_hist ends, the chain it starts the drive-free dynamics from has an energy per spin within 0.005 of the requested energy density and a mean magnetisation of at most 0.003 in every component; on chains of even length, with unit spins in local fields that do not vanish, the energy stays in that band during the whole trajectory.", "quantifier": "all valid configurations, sample counts, random numbers and numbers of passes of the search", "why_tests_cant": "The search has an unbounded number of passes and depends on every random number; conservation along the trajectory is a statement about all times.", "anchors": ["src/obs.rs: gen_hist (675-792)"]}
{"id": "C73", "title": "gen_single_traj records one sample per period", "statement": "gen_single_traj writes one sample (energy and magnetisation) per drive period from period 31 on; without relaxation time exactly the requested number of samples.", "quantifier": "all valid configurations with a period of a whole number of steps, all sample counts and relaxation times of a whole number of steps", "why_tests_cant": "All step sizes, periods and sample counts.", "anchors": ["src/obs.rs: gen_single_traj (541-602)"]}
{"id": "C74", "title": "Extended log lists the sites of the subsystem", "statement": "Every call of log_ext writes one row per site j with 1 <= j < min(ssize, hsize-1), holding the time, the index, half of both bond energies plus the field energy of the site, and its spin; sites 0 and hsize-1 are never written, and a subsystem larger than the chain panics.", "quantifier": "all chains", "why_tests_cant": "Every size and state.", "anchors": ["src/spinchain.rs: SpinChain::log_ext (1070-1110)"]}
{"id": "C75", "title": "Response runs switch the field off at time zero", "statement": "run_sim_response logs the thermal state, then sets the clock to -t and performs the least number N of steps reaching t; steps starting before time zero use all fields, later ones no static field; N+1 rows are written when not stroboscopic.", "quantifier": "all valid configurations with dt > 0 and all random numbers", "why_tests_cant": "All step sizes and lengths; the switching step depends on both.", "anchors": ["src/obs.rs: run_sim_response (942-1011)", "src/spinchain.rs: SpinChain::update_no_field (1747-1771)"]}
{"id": "C76", "title": "Profile messages account for the whole energy", "statement": "A profile consists of one message per site in order, with the site's spin and half of the energies of its two bonds, so that the site energies add up to the exchange energy of the ring.", "quantifier": "all chains", "why_tests_cant": "Every size and state.", "anchors": ["src/obs.rs: run_mc_profile (1603-1701)", "src/obs.rs: run_dyn_profile (1078-1259)"]}
{"id": "C77", "title": "Monte-Carlo runs deliver exactly mc_points snapshots", "statement": "run_mc, run_mc_magnus and run_mc_profile take exactly mc_points snapshots for every number of threads, each one million updates after the one before (or after a new chain) of the same worker; run_mc and run_mc_magnus send one row of the documented columns per snapshot, and the profile file holds, for every site, the means over all snapshots, however the workers' messages are interleaved.", "quantifier": "all configurations, random numbers, thread counts and interleavings", "why_tests_cant": "Interleavings and thread counts are unbounded; a test sees one schedule and cannot wait for millions of updates.", "anchors": ["src/obs.rs: run_mc (1703-1792)", "src/obs.rs: run_mc_magnus (1512-1601)", "src/obs.rs: run_mc_profile (1603-1701)", "src/writers.rs: profile_in_bg (11-48)"]}
{"id": "C78", "title": "Dynamic samples are taken at the configured time", "statement": "gen_hist_dynamics gives sample_num rows, row i holding the magnetisation and energy of a fresh chain at time t, the time in the file name. (With a relaxation time the samples are taken that much earlier, since the chain's clock starts at minus trel.)", "quantifier": "all configurations and random numbers", "why_tests_cant": "The time of the sample is not in the file; only the relation between steps and the clock of the chain shows it.", "anchors": ["src/obs.rs: gen_hist_dynamics (605-671)"]}
{"id": "C79", "title": "Magnus histogram rows", "statement": "gen_hist_magnus gives sample_num rows of magnetisation, energy and two spins of the chain without drive, 10000 Magnus updates apart, while clock, couplings and fields of the chain stay as they were made.", "quantifier": "all configurations and random numbers", "why_tests_cant": "The samples are random; which chain a row belongs to is not observable from the output.", "anchors": ["src/obs.rs: gen_hist_magnus (412-475)"]}
{"id": "C80", "title": "The chain absorbs exactly the work of the drive", "statement": "Per time-step, hsize times the change of the reported total energy equals the change of the driving field over the first half of the step dotted with the reported subsystem magnetisation before the step, plus its change over the second half dotted with the magnetisation after it; over a run the energy absorbed is the sum of these, whatever drive, couplings and fields.", "quantifier": "all chains of even length with unit spins, all drives, all numbers of steps without vanishing local fields", "why_tests_cant": "Heating rates are the output of the program; a test can only compare a few runs with a tolerance, not show that no energy appears or disappears other than through the drive.", "anchors": ["src/spinchain.rs: SpinChain::update (1774-1798)", "src/spinchain.rs: SpinChain::total_energy2 (1264-1293)", "src/spinchain.rs: SpinChain::m (1687-1697)", "src/spinchain.rs: SpinChain::h_ext (1712-1740)"]}
{"id": "C81", "title": "The driven dynamics repeats with the drive period", "statement": "Starting the same spins any whole number of drive periods later gives the same sequence of spins and energies; if the spins have returned after a whole number of periods the history repeats.", "quantifier": "all chains (also those on which the program panics), all numbers of steps and of periods", "why_tests_cant": "A property of all initial states and all times.", "anchors": ["src/spinchain.rs: SpinChain::update (1774-1798)", "src/spinchain.rs: SpinChain::h_ext (1712-1740)", "src/spinchain.rs: SpinChain::total_energy2 (1264-1293)"]}
{"id": "C82", "title": "Rotation symmetry of the dynamics", "statement": "If couplings and static fields are unchanged by a rotation, turning all initial spins by it (and moving the clock so that the drive turns with them) turns the whole history and leaves the reported energies unchanged; in particular rotations about z for couplings (j,j,lambda) and fields along z, with the rotating drive, and all rotations for isotropic chains without field.", "quantifier": "all rotations, all chains with the symmetry, all numbers of steps without vanishing local fields", "why_tests_cant": "A symmetry quantifies over all rotations and all states.", "anchors": ["src/spinchain.rs: SpinChain::update (1774-1798)", "src/spinchain.rs: SpinChain::total_energy2 (1264-1293)", "src/spin.rs: Spin::rotate (172-195)"]}
{"id": "C83", "title": "Lattice symmetry of the dynamics", "statement": "On a chain of even length driven everywhere or nowhere, moving spins, couplings and fields by an even number of sites around the ring, or taking the mirror image, moves or mirrors the whole history, bit for bit also in floating point.", "quantifier": "all chains of even length, all even shifts, all numbers of steps", "why_tests_cant": "Boundary handling at the ends of the ring is where hand-written index code goes wrong; the claim is about every site and every state.", "anchors": ["src/spinchain.rs: SpinChain::update (1774-1798)", "src/spinchain.rs: SpinChain::even_omega (1829-1849)", "src/spinchain.rs: SpinChain::odd_omega (1850-1870)"]}
{"id": "C84", "title": "Equilibrium states", "statement": "A chain whose moving spins all point along or against their non-vanishing local fields is left unchanged by any number of updates under a constant or absent drive; conversely a chain of even length left unchanged by all short steps has this form.", "quantifier": "all chains, all numbers of steps", "why_tests_cant": "Needs all states and all step sizes.", "anchors": ["src/spinchain.rs: SpinChain::update (1774-1798)", "src/spin.rs: Spin::rotate (172-195)"]}
{"id": "C85", "title": "Second-order accuracy of the integrator", "statement": "The trajectory computed by update follows the exact solution of the equations of motion (each spin precessing about its local field, including the rotating drive): one step of size dt deviates by at most a constant times dt^3, and all steps up to a fixed total time by at most a constant times dt^2. The constants depend only on couplings, fields, drive, length and total time, not on the spins or the clock. The exact solution exists for all times and is unique, so the runs with smaller and smaller steps converge to it.", "quantifier": "all chains of even length, all unit spins, all step sizes, all numbers of steps within the total time, no vanishing local fields", "why_tests_cant": "Convergence order is a statement about all step sizes going to zero; a test sees a few step sizes on one trajectory and cannot compare with the unknown exact motion.", "anchors": ["src/spinchain.rs: SpinChain::update (1774-1798)", "src/spinchain.rs: SpinChain::even_omega (1829-1849)", "src/spinchain.rs: SpinChain::odd_omega (1850-1870)", "src/spinchain.rs: SpinChain::h_ext (1712-1740)", "src/spin.rs: Spin::rotate (172-195)"]}
{"id": "C86", "title": "Conservation of phase-space volume; vanishing fields are exceptional", "statement": "If the spins are independent and uniformly distributed on the sphere, they still are after any number of updates, driven or not, as long as almost no starting spins meet a vanishing local field. On rings with at least four moving sites and non-zero couplings almost all starting spins never meet a vanishing local field, so updates of almost all chains never produce NaN.", "quantifier": "all chains, all numbers of updates, all observables; almost all spins", "why_tests_cant": "A statement about the measure of all states; no sample can show that a set is null or that a map preserves volume.", "anchors": ["src/spinchain.rs: SpinChain::update (1774-1798)", "src/spinchain.rs: SpinChain::even_omega (1829-1849)", "src/spinchain.rs: SpinChain::odd_omega (1850-1870)", "src/spin.rs: Spin::rotate (172-195)"]}
{"id": "C87", "title": "Range of the reported energies", "statement": "For unit spins the total energy per site, driven or not, lies between minus and plus the mean over the sites of the largest coupling of the bond plus the field strength, and the lower bound is attained by parallel spins with isotropic ferromagnetic couplings and fields against the spins.", "quantifier": "all chains with unit spins", "why_tests_cant": "A bound over all states; sampling never settles it.", "anchors": ["src/spinchain.rs: SpinChain::total_energy2 (1264-1293)", "src/spinchain.rs: SpinChain::mc_total_energy (1441-1465)"]}
{"id": "C88", "title": "The Boltzmann distribution is stationary for the Metropolis samplers", "statement": "If the spins have the Boltzmann distribution of the reported total energy at the configured temperature, any number of metropolis_update calls with independent uniform draws leaves the mean of every observable unchanged. The same holds for the laboratory-frame and rotating-frame samplers with the energies their acceptance tests use. The sampler of the Langevin mode does the same for the spin energy without fields.", "quantifier": "all chains of at least two spins (rotating frame: three) with beta >= 0, all observables (Borel functions of the spins), all numbers of updates", "why_tests_cant": "A statement about integrals over all spin configurations and all draws.", "anchors": ["src/spinchain.rs: SpinChain::metropolis_update (438-494)", "src/spinchain.rs: SpinChain::metropolis_update_maglab (219-283)", "src/spinchain.rs: SpinChain::metropolis_update_rot_magnus (287-429)", "src/spinchain.rs: SpinChain::mc_total_energy (1441-1465)", "src/spinchain_langevin.rs: SpinChainLangevin::metropolis_update (208-262)"]}
{"id": "C89", "title": "Monte-Carlo sampling converges to the Boltzmann distribution", "statement": "From any unit spins the distribution after n updates approaches the Boltzmann distribution of the reported energy in total variation, at a geometric rate in the number of sweeps that depends neither on the starting spins nor on the observable. The sampler of the Langevin mode does the same for the spin energy without fields.", "quantifier": "all chains of at least two spins (rotating frame: three) with beta >= 0, all starting spins, all bounded observables, all numbers of updates", "why_tests_cant": "Convergence in distribution cannot be observed in finitely many runs.", "anchors": ["src/spinchain.rs: SpinChain::metropolis_update (438-494)", "src/spinchain.rs: SpinChain::metropolis_update_maglab (219-283)", "src/spinchain.rs: SpinChain::metropolis_update_rot_magnus (287-429)", "src/spinchain.rs: SpinChain::mc_total_energy (1441-1465)", "src/spinchain_langevin.rs: SpinChainLangevin::metropolis_update (208-262)"]}
{"id": "C90", "title": "Distribution of the spins of a new chain", "statement": "The spins of a chain made by SpinChain::new have, over the independent uniform draws, the Boltzmann distribution at the configured beta of an open chain of unit couplings whose first spin is attached to the fixed starting direction (azimuth 0.01 in the x-y plane); couplings, anisotropy, disorder and fields do not enter. Hence the mean of spin i is (coth beta - 1/beta)^(i+1) times the starting direction (the ensemble is not isotropic) and the mean of S_i.S_j is (coth beta - 1/beta)^|i-j|. Degenerate draws have probability zero.", "quantifier": "all configurations with beta different from zero, all lengths, all Borel functions of the spins", "why_tests_cant": "A statement about the joint distribution of all spins over all draws.", "anchors": ["src/spinchain.rs: SpinChain::new (123-218)", "src/spin.rs: Spin::rot_perp (97-133)", "src/spin.rs: Spin::gs (84-95)", "src/spin.rs: Spin::new_from_angles (57-61)"]}
{"id": "C91", "title": "Rows written by the effective-ensemble modes", "statement": "Each of --adiab2, --rot, --maglab, --fit, --fit-effective, --high-freq and --adiabatic appends exactly one row to its file, in a fixed order: the period of the drive in force, the target energy density (for --adiabatic and --adiab2 the initial inverse temperature), the inverse temperature its search found when run with this target and the fields of the mode, and the observables measured at this inverse temperature with otherwise the same configuration. The main program appends nothing else.", "quantifier": "all combinations of options, all configurations, all results of the searches and measurements", "why_tests_cant": "All combinations of options; the modes pass a mutable configuration on to each other.", "anchors": ["src/main.rs: main (139-470)"]}
{"id": "C92", "title": "Monte-Carlo averages are consistent", "statement": "The average of a bounded observable over n samples of the sampling loops of the estimators (any number of updates before each sample, any unit starting spins, no burn-in) differs in root mean square from the thermal mean of the observable, for the energy the sampler samples, by at most sqrt(K/n) times the size of the observable, with one constant K for all inverse temperatures up to a bound, all observables, starting spins and numbers of updates; the probability that it is off by delta or more, or that the loop panics, is at most K M^2/(n delta^2).", "quantifier": "all chains of at least two spins (rotating frame: three), observables, starting spins, temperatures, numbers of samples and of updates between them", "why_tests_cant": "A statement about the distribution of the average over all draws, uniformly in the observable and the starting state.", "anchors": ["src/obs.rs: estim_e (3-20)", "src/obs.rs: estim_e2 (59-78)", "src/obs.rs: estim_eh (79-99)", "src/obs.rs: estim_e_maglab (22-39)", "src/obs.rs: estim_e_rot (41-58)", "src/obs.rs: get_obs (378-408)", "src/spinchain.rs: SpinChain::metropolis_update (438-494)", "src/spinchain.rs: SpinChain::metropolis_update_maglab (219-283)", "src/spinchain.rs: SpinChain::metropolis_update_rot_magnus (287-429)"]}
{"id": "C93", "title": "Energy density and inverse temperature determine one another", "statement": "For a chain of at least three spins with some coupling or field different from zero, the thermal mean of the energy density reported by mc_total_energy is a continuous strictly decreasing function of the inverse temperature, zero at zero, with the ground-state energy density as its limit; an energy density belongs to exactly one positive inverse temperature if and only if it is negative and above that of some configuration. Hence the searches, given exact estimates, return this inverse temperature up to 0.0005 whenever it lies in their bracket.", "quantifier": "all chains of three or more spins, all couplings and fields not all zero, all target energies", "why_tests_cant": "A statement about an integral over all configurations for a continuum of temperatures.", "anchors": ["src/obs.rs: find_beta2 (136-169)", "src/obs.rs: find_betah (101-134)", "src/obs.rs: find_beta (243-277)", "src/spinchain.rs: SpinChain::mc_total_energy (1441-1465)"]}
{"id": "C94", "title": "The temperature searches are statistically consistent", "statement": "For a configuration without disorder (jvar = hvar = 0, beta not zero), with n samples per estimate instead of 1000, find_beta2, find_beta, find_beta_maglab and find_beta_rot return, except with probability at most K/(n delta^2), an inverse temperature within 0.0005 of one at which the thermal mean of the observable they estimate is the target up to delta, whenever the target lies between the means at the ends of the bracket up to delta. In particular find_beta2 given the thermal energy density at some bs in [0.01, 5] returns bs up to any eta > 0.0005 with probability tending to one as n grows.", "quantifier": "all valid configurations without disorder, all targets, tolerances and numbers of samples; probability over all draws", "why_tests_cant": "A statement about the distribution of the result of a randomised adaptive search over all draws and all configurations.", "anchors": ["src/obs.rs: find_beta (243-277)", "src/obs.rs: find_beta2 (136-169)", "src/obs.rs: find_beta_maglab (171-205)", "src/obs.rs: find_beta_rot (207-241)", "src/obs.rs: estim_e (3-20)", "src/obs.rs: estim_e2 (59-78)", "src/obs.rs: estim_e_maglab (22-39)", "src/obs.rs: estim_e_rot (41-58)"]}
{"id": "C95", "title": "Rounding errors of a run", "statement": "In IEEE binary64 with a mathematics library of accuracy eps, n calls of update (any drive, any length, run no longer than T, A periods, ellipticity at most E, couplings and fields at most M, time-step at most 1/(5M)) give finite spins, of unit length up to 8 eps, each within exp(4 M n dt) (D + 4000 (1 + T A E) n eps) of the spin that the same calls give in exact arithmetic, D being the distance of the initial spins, as long as this bound is small compared with the smallest local field met (always bounded below if the static fields along z exceed the couplings). The clock is within n T eps of the time. Together with the error of the method the computed spins are within K dt^2 plus this bound of the exact motion, K independent of the time-step.", "quantifier": "all chains, drives, numbers of steps, accuracies and libraries of that accuracy", "why_tests_cant": "A bound on accumulated rounding errors over all inputs and all numbers of steps, against exact real arithmetic that no test can run.", "anchors": ["src/spinchain.rs: SpinChain::update (1774-1798)", "src/spinchain.rs: SpinChain::h_ext (1712-1740)", "src/spin.rs: Spin::rotate (172-195)"]}
{"id": "C96", "title": "The Langevin edges are a thermostat", "statement": "For SpinChainLangevin::update with normally distributed noise, positive damping and temperature: (i) the mean change of every smooth observable in one update is dt times the generator of the stochastic Landau-Lifshitz dynamics (precession of all spins, damping gamma and diffusion constant gamma/beta on the two edge spins), up to C dt^(3/2) uniformly in the spins; (ii) the Boltzmann distribution of the open chain at the configured beta is stationary for this generator; (iii) hence if the spins have the Boltzmann distribution, one update changes the mean of every smooth observable by at most C dt^(3/2); (iv) for small time-steps and inner couplings that do not vanish almost all spins and noise meet no vanishing field in an update.", "quantifier": "all chains, drives, smooth observables, spins and time-steps up to a bound; mean over all noise", "why_tests_cant": "A statement about the mean over a continuous noise distribution in the limit of small time-steps; sampling can neither resolve the order in dt nor cover all observables.", "anchors": ["src/spinchain_langevin.rs: SpinChainLangevin::update (697-747)", "src/spinchain_langevin.rs: SpinChainLangevin::even_omega (781-816)", "src/spinchain_langevin.rs: SpinChainLangevin::odd_omega (817-849)"]}
{"id": "C97", "title": "Langevin runs settle at the configured temperature", "statement": "Repeated SpinChainLangevin::update with normally distributed noise, positive damping and temperature: (i) for small time-steps and almost all initial spins (all unit spins on two or three sites) a run of any length almost surely meets no vanishing field; (ii) from whatever unit spins the run starts and whatever the drive, the average over n updates of the mean of the generator at the configured beta applied to any smooth observable is at most C (1/(n dt) + sqrt dt) in absolute value; (iii) in particular, without time-dependent drive, the average of the squared torque |S x Omega|^2 on the edge spins over a long run is its thermal value (2/beta) S.Omega within C (1/(n dt) + sqrt dt); (iv) in Boltzmann distributions this relation holds for the right beta and no other.", "quantifier": "all chains, drives, initial unit spins, smooth observables, run lengths and time-steps up to 1; mean over all noise", "why_tests_cant": "Needs the mean over a continuous noise distribution along runs of unbounded length, from every initial state, with a rate in dt and n.", "anchors": ["src/spinchain_langevin.rs: SpinChainLangevin::update (697-747)", "src/spinchain_langevin.rs: SpinChainLangevin::even_omega (781-816)", "src/spinchain_langevin.rs: SpinChainLangevin::odd_omega (817-849)"]}
{"id": "C98", "title": "Energy balance of driven Langevin runs", "statement": "Repeated SpinChainLangevin::update with normally distributed noise, positive damping and temperature: the mean energy of the open chain after n updates differs from the initial one by the mean work of the drive (changes of the energy through the field between updates, at the spins then present) minus gamma dt times the summed mean excess of the squared edge torque over its thermal value, up to n C dt^(3/2). Hence in long runs the mean power taken up from the drive equals the mean heat passed to the edges within C (1/(n dt) + sqrt dt).", "quantifier": "all chains, drives, initial unit spins, run lengths and time-steps up to 1; mean over all noise", "why_tests_cant": "A statement about means over a continuous noise distribution along runs of unbounded length with an error of known order in dt.", "anchors": ["src/spinchain_langevin.rs: SpinChainLangevin::update (697-747)", "src/spinchain_langevin.rs: SpinChainLangevin::even_omega (781-816)", "src/spinchain_langevin.rs: SpinChainLangevin::odd_omega (817-849)", "src/spinchain_langevin.rs: SpinChainLangevin::h_ext (632-660)"]}
{"id": "C99", "title": "Long runs: returns and time averages", "statement": "If the drive repeats after p updates (no drive, static field, or p time-steps lasting whole periods), then on at least four sites with non-zero couplings, repeated SpinChain::update (i) brings almost all starting spins back arbitrarily close to where they were, arbitrarily late, after multiples of p updates; (ii) gives every bounded observable that repeats with the drive a long-time average along almost every trajectory, both over all updates and over the updates at one phase of the drive, and the mean of that average over all starting spins is the mean of the observable; (iii) in particular the mean energy that trajectory_mean_e takes over periods converges as the number of periods grows; (iv) spins left behind by any number of metropolis_update calls, from almost any start, belong to the good ones with probability one.", "quantifier": "all chains, drives that repeat, bounded Borel observables; almost all starting spins (uniform, hence also thermal), unbounded run lengths", "why_tests_cant": "A limit over infinitely long runs for almost all of a continuum of starting spins; no finite run shows convergence, let alone returns.", "anchors": ["src/spinchain.rs: SpinChain::update (1774-1798)", "src/spinchain.rs: SpinChain::even_omega (1829-1849)", "src/spinchain.rs: SpinChain::odd_omega (1850-1870)", "src/spin.rs: Spin::rotate (172-195)", "src/obs.rs: trajectory_mean_e (477-539)", "src/spinchain.rs: SpinChain::metropolis_update (438-494)"]}
{"id": "C100", "title": "Benchmarked variants of the kernels compute the same", "statement": "The benchmarks compare like with like: the original and the optimised rotation of a spin give the same direction as Spin::rotate, and the original and the optimised computation of the even fields give the same fields as SpinChain::even_omega for the same couplings, fields and drive.", "quantifier": "all spins, fields, couplings, lengths and times; in every arithmetic where the operations coincide", "why_tests_cant": "Equality of two programs on all inputs (and of their panics); the benchmarks discard the results and no test compares them.", "anchors": ["src/benches/spin_rotate.rs: rotate_original", "src/benches/spin_rotate.rs: rotate", "src/benches/even_omega.rs: even_omega", "src/benches/even_omega.rs: even_omega_new", "src/spin.rs: Spin::rotate (172-195)", "src/spinchain.rs: SpinChain::even_omega (1829-1849)"]}
{"id": "C101", "title": "Index functions of the ring", "statement": "pbc_index_odd(n, l) is the left neighbour of site 2n and pbc_index_even(n, l) the right neighbour of site 2n-1 on a ring of 2l sites; the former panics only for n = l = 0.", "quantifier": "all n and l in range", "why_tests_cant": "Holds for all ring sizes and sites; the functions are private and unused, so no test reaches them.", "anchors": ["src/spinchain.rs: SpinChain::pbc_index_odd (1872-1877)", "src/spinchain.rs: SpinChain::pbc_index_even (1878-1883)", "src/spinchain_langevin.rs: SpinChainLangevin::pbc_index_odd (851-856)", "src/spinchain_langevin.rs: SpinChainLangevin::pbc_index_even (857-862)"]}
{"id": "C102", "title": "The boundary terms measure the energy exchanged with the baths", "statement": "SpinChain::boundary_term never panics for a subsystem of at least two sites, and with the subsystem in thermal equilibrium at inverse temperature b (as an open chain in the static field) its mean is (b / beta - 1) times the mean squared torque on the two edge spins: if the first bond is coupled, energy flows in if the baths at beta are hotter, out if they are colder, and the mean vanishes exactly if the temperatures agree. SpinChainLangevin::boundary_term, on even chains driven as a whole without static field at the ends: the mean energy after n calls of update with normally distributed noise is the initial energy plus dt times the sum of the mean boundary terms, up to n C dt^(3/2), so that its average over a long run vanishes up to C (1/(n dt) + sqrt dt).", "quantifier": "all chains, subsystems, couplings, fields, drives, temperatures, initial unit spins, run lengths and time-steps up to 1; mean over all noise", "why_tests_cant": "Means over continuous distributions of spins and noise along runs of unbounded length with an error of known order; a simulation gives noisy finite samples, and one of the two functions is called nowhere.", "anchors": ["src/spinchain.rs: SpinChain::boundary_term (1350-1382)", "src/spinchain_langevin.rs: SpinChainLangevin::boundary_term (543-576)", "src/spinchain_langevin.rs: SpinChainLangevin::update (697-747)"]}
{"id": "C103", "title": "Infinities and NaN appear only where a named divisor vanishes", "statement": "Starting from finite numbers and leaving rounding aside, the functions that evolve, sample and report on a chain (update, the energies including the Magnus ones, m, m_tot, boundary_term, energy_spectrum, log, log_ext, the five Monte-Carlo updates, and their Langevin counterparts) return finite numbers equal to those of exact real arithmetic, make the same decisions (acceptance of Monte-Carlo moves, whether a spectrum is logged) and panic in the same cases, provided only: the period is not zero (functions using a periodic drive or the drive frequency), hsize is not zero and the subsystem is not a single site (energies per site or bond), beta is not zero (boundary terms, Langevin noise), and, for update, no local field met on the way vanishes. A run of n updates ends with finite spins if and only if no local field vanished in any sub-step; otherwise some spin has three NaN components.", "quantifier": "all well-formed or malformed chains of finite numbers, drives, lengths, random numbers, noise histories and run lengths; unit spins for update", "why_tests_cant": "That a list of exceptional conditions is complete is a statement about all inputs, and vanishing fields along a run depend on its whole history; tests only show single runs that did or did not produce NaN.", "anchors": ["src/spin.rs: Spin::rotate (172-195)", "src/spinchain.rs: SpinChain::update (1774-1798)", "src/spinchain.rs: SpinChain::h_ext (1712-1740)", "src/spinchain.rs: SpinChain::total_energy2 (1264-1293)", "src/spinchain.rs: SpinChain::log (1112-1151)", "src/spinchain_langevin.rs: SpinChainLangevin::update (697-747)"]}
{"id": "C104", "title": "A period of zero destroys the chain silently", "statement": "With a periodic drive (xyplane, uniaxial or xyelliptic) and tau = 0 nothing panics: total_energy2, total_energy and (for subsystems of at least two sites) system_energy return NaN at every time, one call of update makes all components of every driven spin NaN, and half as many further calls as there are sites do so with every spin of the (even part of the) chain, for ever.", "quantifier": "all well-formed chains of at least two sites with at least one driven site and a subsystem no larger than the chain (total_energy, system_energy), all times, couplings, fields and time-steps, IEEE binary64 with any library whose cosine of an infinity is NaN", "why_tests_cant": "A statement about all states of the chain and all later times; the program reports no error, so a test would have to look for NaN in every possible run.", "anchors": ["src/spinchain.rs: SpinChain::h_ext (1712-1740)", "src/spinchain.rs: SpinChain::update (1774-1798)", "src/spinchain.rs: SpinChain::total_energy2 (1264-1293)", "src/spinchain.rs: SpinChain::system_energy (1415-1439)"]}
{"id": "C105", "title": "Reported energies, magnetisations and log rows are accurate to rounding error", "statement": "In IEEE binary64 with a mathematics library of accuracy eps, the reported total, subsystem and Monte-Carlo energies, the magnetisations and all thirteen numbers of every row of the log differ from what exact arithmetic reports for the exact state by an explicit bound: about 144 M L / 2^52 for summing over L sites with couplings and fields up to M, plus the error of the drive through the rounded clock, plus 5 M times the error of the spins. total_energy and total_energy2, equal in exact arithmetic, agree within twice that bound. Over a run of n updates this bounds the error of the log itself.", "quantifier": "all chains of 2 to 2^31-1 sites, all couplings and fields up to M <= 2^20, all drives, all run lengths within the stated smallness condition, all mathematics libraries of accuracy eps", "why_tests_cant": "Rounding errors depend on every bit of every input and accumulate over sums of any length; a test compares single sums against a tolerance chosen by hand and has no exact value to compare with.", "anchors": ["src/spinchain.rs: SpinChain::total_energy (1297-1342)", "src/spinchain.rs: SpinChain::total_energy2 (1264-1293)", "src/spinchain.rs: SpinChain::system_energy (1415-1439)", "src/spinchain.rs: SpinChain::m (1687-1697)", "src/spinchain.rs: SpinChain::log (1112-1151)"]}
{"id": "C106", "title": "The Monte-Carlo sampler follows the exact algorithm for all but a tiny fraction of the random numbers", "statement": "In IEEE binary64 with a mathematics library of accuracy eps, one Metropolis update accepts exactly when the exact algorithm does, unless the third uniform number falls within doubt = 8 b M (77 eps + D) of the probability of acceptance (inverse temperature up to b, couplings and fields up to M, spins within D of exact unit vectors); the proposed direction is within 56 eps of the exact one and has length 1 within 8 eps, so errors do not grow with the number of updates. Hence among all sequences of random numbers for n updates, at most a fraction n (2 doubt + 2^-52) makes the program ever leave the exact trajectory by more than D, every run succeeds with finite numbers, and the mean reported energy over all sequences differs from that of the exact algorithm by at most 128 M L / 2^52 + 5 M D + 4 M n (2 doubt + 2^-52).", "quantifier": "all chains of at least 2 sites, all couplings, fields and temperatures with b M <= 2^20, all numbers of updates, all random numbers the crate rand can return, all mathematics libraries of accuracy eps", "why_tests_cant": "The decision to accept compares two rounded numbers; a wrong decision happens for one sequence of random numbers in many millions, and no test can tell a rounding error from a bug in a random process.", "anchors": ["src/spinchain.rs: SpinChain::metropolis_update (438-494)", "src/spin.rs: Spin::new_from_angles (57-61)", "src/spinchain.rs: SpinChain::mc_total_energy (1441-1465)"]}
{"id": "C107", "title": "Every Metropolis sampler settles in exactly one state; that of the Magnus sampler is not the Magnus thermal state", "statement": "Each of the five Monte-Carlo samplers, also the two that satisfy no detailed balance (metropolis_update_magnus and metropolis_update_mag_full), has exactly one stationary distribution of unit spins. It gives positive probability to every region of positive measure; from any start the distribution after n updates approaches it geometrically in the number of sweeps, and the averages computed by the sampling loop over n samples have root-mean-square error sqrt(K M^2/n) around its means. For metropolis_update, the laboratory- and rotating-frame samplers and the Langevin-mode sampler it is the Boltzmann distribution of the energy they sample, and no other distribution is stationary. For metropolis_update_magnus it is not the Boltzmann distribution of the first-order Magnus energy, with whatever weight of the S^z term, as soon as the bond at the edge of the subsystem couples x or z.", "quantifier": "all chains (at least 2 sites, 3 for the rotating frame and the negative part), couplings, fields, inverse temperatures beta >= 0 (> 0 for the negative part), starting spins, observables, numbers of updates and samples", "why_tests_cant": "Uniqueness of a stationary distribution on a continuous space, and that a given distribution is not stationary, are statements about integrals over all spins; a test sees finitely many noisy averages and cannot tell a sampler of the wrong distribution from one of the right distribution with an unknown energy.", "anchors": ["src/spinchain.rs: SpinChain::metropolis_update_magnus (939-1069)", "src/spinchain.rs: SpinChain::metropolis_update_mag_full (506-937)", "src/spinchain.rs: SpinChain::metropolis_update (438-494)", "src/spinchain.rs: SpinChain::metropolis_update_maglab (219-283)", "src/spinchain.rs: SpinChain::metropolis_update_rot_magnus (287-429)", "src/spinchain_langevin.rs: SpinChainLangevin::metropolis_update (208-272)", "src/obs.rs: sampling loops of gen_hist_magnus (412-475) and run_mc_magnus (1512-1601)"]}
{"id": "C108", "title": "Numbers survive the text files; a cut file keeps its complete rows, but its last number may be wrong", "statement": "If f64 is printed so that parsing gives the same number (as Rust documents of {}), then the rows of a log file, of avg.dat and of the two-point file, and the messages to the averaging writer, are read back as exactly the numbers written, NaN, infinities and -0 included; averaging text files gives the average of the numbers that were logged, and the file written holds exactly these averages. The header of a Langevin log contains no numbers, so that skipping the first line loses nothing there; the other logs lose their first row. A file cut at any character still gives all rows completely written before the cut, and possibly one more line with the first numbers of the next row and at most one number more, which can be wrong (12.5 read as 1) without any warning. Decimal text of any length is read as the nearest binary64 number. Words that are not numbers are left out, and the numbers behind them move to other columns.", "quantifier": "all rows and files of binary64 numbers, all ways of printing that parse back, all positions of the cut", "why_tests_cant": "There are 2^64 numbers, any number of rows and any position at which a file may end; a test tries a few.", "anchors": ["src/spinchain.rs: SpinChain::log (1112-1151)", "src/spinchain_langevin.rs: header of the log (193), SpinChainLangevin::log (407-434)", "src/writers.rs: write_in_bg (3-9), profile_in_bg (11-48)", "src/obs.rs: two_point_average (1326-1434), average (1436-1510)"]}
{"id": "C109", "title": "The magnetisation along z is conserved up to the square of the time-step, but not exactly", "statement": "For couplings that are the same along x and y and fields along z, the exact motion conserves the total magnetisation along z; the magnetisation of any block of sites changes only by what flows over the two bonds at its ends and by the torque of transverse fields. The value of m_tot reported by the program after any number of updates fitting into a time T differs from the one before the run by at most K dt^2, with K independent of the spins, the time-step and the number of updates; for isotropic chains without field this holds for all three components. The program does not conserve the magnetisation exactly: two isotropically coupled spins with m_tot = (1,0,1) have (1,0,-1) after one update with dt = pi/2.", "quantifier": "all chains of even length, couplings equal along x and y, fields along z, unit spins, time-steps, numbers of updates in which no local field vanishes", "why_tests_cant": "A conservation law and its order in the time-step concern all spins, couplings and numbers of updates; a test sees single runs.", "anchors": ["src/spinchain.rs: SpinChain::m_tot (1699-1709), SpinChain::update (1774-1798)"]}
{"id": "C110", "title": "The thermal state found by the sampler has the symmetries of the couplings and fields", "statement": "If the static fields have no component along an axis, then in the thermal state sampled by metropolis_update the mean of every spin component along this axis is zero, and so are its correlations with components along the other axes; the average of n sampled values of m_tot along this axis is below delta except with probability K L^2/(n delta^2). For isotropic couplings without field the correlations of two sites are the same along all axes. Reversing the signs of some spins together with the couplings of the bonds where only one end is reversed and the fields of the reversed sites leaves the energy density as a function of temperature unchanged; in particular, on rings of even length without field, reversing all couplings does. In a field the spins on the whole point against it: the mean energy in the fields is negative at every positive inverse temperature, whatever the couplings, and in a uniform field h the mean of h . m_tot is negative.", "quantifier": "all chains of at least 2 sites, couplings, fields as stated, inverse temperatures, sites, starting spins, numbers of samples", "why_tests_cant": "Thermal means are integrals over all spins; a test sees noisy averages, in which a small violation cannot be told from noise.", "anchors": ["src/spinchain.rs: SpinChain::metropolis_update (438-494), SpinChain::mc_total_energy (1441-1465), SpinChain::m_tot (1699-1709)"]}
{"id": "C111", "title": "Disorder is independent and normal; jvar and hvar are standard deviations, not the documented variances", "statement": "If the draws are independent standard normal numbers, the components of all couplings and static fields of a new chain (normal or Langevin mode) are independent and normally distributed around the values of the configuration, with standard deviations |jvar| and |hvar|. The documentation calls jvar and hvar variances; the variances are their squares, so the documented statement holds only for the values 0 and 1 (the default jvar = 0.001 gives the variance 0.000001). For given spins the reported mc_total_energy, as a random variable of the disorder, has the mean of the chain without disorder and the variance (jvar^2 sum (S_i^a S_{i+1}^a)^2 + hvar^2 sum (S_i^a)^2)/L^2.", "quantifier": "all configurations with at least three field components, all sizes, sites and components, all spins", "why_tests_cant": "Distributions and independence of a growing number of random numbers are not visible in samples; the difference of standard deviation and variance is easily overlooked at small values.", "anchors": ["src/spinchain.rs: SpinChain::new (168-198), SpinChain::mc_total_energy (1441-1465)", "src/spinchain_langevin.rs: SpinChainLangevin::new (159-189)", "src/config.rs: jvar, hvar", "README.md: Configuration features"]}
{"id": "C112", "title": "The drives against their documentation", "statement": "The drives xyplane, uniaxial, staticfield and none are the documented functions of time. The drive xyelliptic is not, for any e and any nonzero period: it is (cos, e sin, 0) instead of the documented (e cos, sqrt(1-e^2) sin, 0); for 0 < e <= 1 its tip runs on the ellipse with semi-axes 1 and e, so that e is its eccentricity only if e^2 = 1/2. With the drive staticfield every site of the subsystem of a new chain feels the field hs twice.", "quantifier": "all configurations, times, periods, values of e, sizes and draws", "why_tests_cant": "That two functions of time differ for every value of the parameters, and a field at every site for every size, are statements about all parameters.", "anchors": ["src/config.rs: DriveType (6-17)", "src/spinchain.rs: SpinChain::h_ext (1712-1740), SpinChain::new (181-198), SpinChain::update (1774-1798)", "README.md: Configuration features"]}
{"id": "C113", "title": "Files of results: which option writes which, and that old results are kept", "statement": "Every combination of options opens exactly the files of a fixed table (apart from log files and config.toml), in a fixed order. Only log files, config.toml, avg.dat, two-point.dat, mc_profile.dat and the files dyn_profile-*-tau.dat are ever emptied: over any sequence of runs with any options and configurations, and any interleaving of writes, the lines of every other file stay, with new ones after them; for the histograms, mc_live.dat and the results of the fits this holds whatever the pattern of the log files is. The files that the help text names are written for --histogram, --magnus-hist and --two-point; for --dynamic-histogram and --trajectory they are not (hist_sj.dat is never written by anything).", "quantifier": "all combinations of options, configurations, results of searches, sequences of runs and interleavings of writes; any rendering of numbers", "why_tests_cant": "There are more combinations of 25 options, configurations and orders of runs than can be tried, and the fits take hours; that no run loses results is a statement about all of them.", "anchors": ["src/main.rs: struct Args (37-131), main (139-470)", "src/obs.rs: gen_hist_magnus (412-421), gen_single_traj (541-548), gen_hist_dynamics (605-611), gen_hist (675-691), run_tau (794-814), run_dyn_profile (1095-1102), two_point_average (1425-1426), average (1498), run_mc_magnus (1512-1517), run_mc_profile (1606), run_mc (1703-1708)", "README.md: usage (46-62)"]}
{"id": "C114", "title": "Entries that only organise the work do not change results; the documented method has no effect", "statement": "For the same random numbers a new chain with other values of method, runs, threads, offset, mc_points, file and (where it is not the target of a search) ednsty, and with another number, gives the same rows or stops with the same panic: in plain, extended, response, Langevin and tau runs, in the dynamic profile, trajectories, histograms and the Monte-Carlo workers; the estimates of energies and observables and the results of the temperature searches are the same too. In particular the integrator ignores method, which README and the generated file describe as the method of numerical integration.", "quantifier": "all configurations, changes of these entries, random numbers and numbers of steps; any number type", "why_tests_cant": "A test would compare a few runs; that nothing in any mode depends on these entries is a statement about all runs, and the random numbers of two runs of the program cannot be made equal.", "anchors": ["README.md: method (88)", "src/config.rs: Config (8-73)", "src/build.rs: (24)", "src/spinchain.rs: new (123-212), update (1774), log, metropolis_update*", "src/obs.rs: estim_*, get_obs*, find_beta*, gen_*, run_*", "src/spinchain_langevin.rs: new, update, metropolis_update, log"]}
{"id": "C115", "title": "Thermal energy and correlations of the clean chain follow the relation behind the default temperature", "statement": "For a ring with unit isotropic couplings and no fields, in thermal equilibrium at inverse temperature beta: the energy density is 1/beta - coth(beta), and two spins k sites apart have correlation (coth(beta) - 1/beta)^k, both up to explicit corrections damped exponentially in the length of the ring, so that they vanish on long rings at every temperature. A configuration without disorder, anisotropy and fields gives such a ring, and the average of the energies reported while sampling with metropolis_update comes arbitrarily close to 1/beta - coth(beta) with high probability.", "quantifier": "all lengths from 2 up, all positive beta, all distances, initial spins, numbers of updates between samples and tolerances; real arithmetic, uniform independent draws", "why_tests_cant": "The test in the repository (metropolis_low_t) compares one energy of one run with a tolerance; the exact value for all temperatures and lengths, and how far a finite ring is from it, need the transfer operator.", "anchors": ["src/spinchain.rs: solve_beta (107-116), new (118-212), metropolis_update, mc_total_energy, tests metropolis_low_t (1993-2016)", "README.md: beta determined from ednsty (93)"]}
{"id": "C116", "title": "The temperature computed from the energy density is the one of that energy density", "statement": "The inverse temperature that solve_beta returns for an energy density e in (-1, 0) is that at which the clean chain has energy density e, up to a small tolerance.", "quantifier": "all energy densities in (-1, 0); real arithmetic", "why_tests_cant": "The loop compares successive iterates, not the equation; how far the result is from the solution depends on the slope at the solution for every e, and tests of single values stay away from the region where it goes wrong.", "anchors": ["src/spinchain.rs: solve_beta (107-116)", "src/spinchain_langevin.rs: solve_beta (98-107)", "src/main.rs: (385)", "README.md: beta determined from ednsty (93)"]}
{"id": "C117", "title": "The ensemble of the rotating frame is that of the driven chain", "statement": "For couplings equal along x and y, static fields along z and the circular drive, the reported energy minus 2 pi / tau times the reported total magnetisation along z is conserved by the exact motion, and by the updates up to K dt^2. It is the energy of the ensembles with the fields (1,0,0) on the driven sites and (0,0,-2 pi / tau) on all (sampled by --adiab2, --fit, --fit-effective and, without static field, --rot; for which driven sites see C118) when the spins are seen from axes that turn with the drive. Therefore every thermal mean of the fits, at any inverse temperature, stays that of the driven chain during the run up to M (exp(|beta| K dt^2) - 1); at whole periods this holds for the spins themselves. Without time-dependent drive the thermal ensemble does not change at all.", "quantifier": "all even chain lengths (from 4 for the ensembles), sizes of the driven part, axial couplings (not zero for the ensembles), fields along z, periods, time-steps, numbers of updates within a given total time, starting clocks, inverse temperatures and bounded measurable observables; real arithmetic", "why_tests_cant": "It compares an ensemble over all configurations of one chain with the time evolution of another; a test sees single runs with statistical noise and one time-step.", "anchors": ["src/spinchain.rs: update, total_energy2, m_tot, mc_total_energy, mc_system_energy_rot, new", "src/main.rs: 182-183, 255-257, 283-284", "src/obs.rs: find_beta, get_obs"]}
{"id": "C118", "title": "A fit measures its observables in the ensemble whose temperature it has fitted", "statement": "Each of --fit, --adiabatic, --fit-effective, --rot and --maglab first searches the inverse temperature at which a thermal mean has the target value and then measures the energy and the magnetisation at this inverse temperature. Search and measurement should use the same ensemble: then the measured columns are its thermal means at the temperature found and, where both use one observable, the energy column is the target up to statistical error and the width 0.0005 of the search.", "quantifier": "all valid configurations without disorder, targets within the bracket, tolerances, numbers of samples of search and measurement; probability over all draws of both; the differences between ensembles for all couplings, fields and temperatures", "why_tests_cant": "Both parts are random; that two samplers have different stationary ensembles shows only in means over very many samples, and only for subsystems smaller than the chain.", "anchors": ["src/obs.rs: find_beta (243-277), find_betah (101-134), find_beta_rot (207-241), find_beta_maglab (171-205)", "src/obs.rs: get_obs (378-408), get_obsh (347-376), get_obs_rot (313-345), get_obs_maglab (279-311)", "src/main.rs: 198-308, 332-379"]}
{"id": "C119", "title": "The histograms of Monte Carlo and of the dynamics describe the same ensemble", "statement": "--histogram writes hist_mc.dat, with Monte-Carlo samples at the configured temperature, and hist_dyn.dat, with samples along the time evolution from a state that a search over further Monte-Carlo states has found close to the configured energy density and without magnetisation. The README compares the two to check that the system thermalises, so (a) the search should end with probability one, and (b) the columns of the two files should have the same means (and distributions) when the configured energy density is the thermal one.", "quantifier": "all configurations, ring lengths, numbers of rows, random draws of the start, of the Monte-Carlo samples and of the search; all short enough time-steps for the dynamics", "why_tests_cant": "Whether an unbounded random search ends is a statement about all sequences of draws; that a mean differs between the files shows only in the limit of many samples and for time-steps tending to zero.", "anchors": ["src/obs.rs: gen_hist (675-793)", "README.md: Histograms (107-115)", "src/main.rs: 388-394"]}
{"id": "C120", "title": "A fast drive does not heat, and the Magnus samplers sample the energy it conserves", "statement": "The program drives the subsystem with a periodic field and studies how the chain settles to the ensemble of a Magnus (high-frequency) expansion. (a) For a short period tau of any of the oscillating drives the energy in the static fields (mc_total_energy) stays within K tau (1 + t) of its initial value along the runs of the program, up to the error of the integrator, K being independent of the period and of the initial spins. (b) There is a first-order effective energy that stays within K tau^2 (1 + t). (c) The energies of the first-order Magnus samplers (--magnus-hist, and the first-order part of --monte-carlo-magnus; in the mean over a period that of --magnus-fit) are this effective energy, so they too are conserved to order tau^2.", "quantifier": "all couplings, static fields, ring lengths, subsystem sizes, initial unit spins, periods, times and short enough time-steps; drives xyplane, uniaxial and xyelliptic", "why_tests_cant": "That a change is of the order of the period or of its square is a statement about all periods tending to zero and all initial states; a run shows one period and one state.", "anchors": ["src/spinchain.rs: update (1774), h_ext (1712), mc_total_energy (1441)", "src/spinchain.rs: metropolis_update_magnus (939-1069)", "src/spinchain.rs: metropolis_update_mag_full (506-937)", "src/spinchain.rs: metropolis_update_maglab (219-)", "src/obs.rs: gen_hist_magnus (412), run_mc_magnus (1512)"]}
{"id": "C121", "title": "A drive cannot cool a thermal state", "statement": "run_sim and its relatives draw initial spins with Metropolis updates at inverse temperature beta and then drive the chain with update. Whatever the drive, the time-step and the number of updates: (a) over the thermal state the mean of exp(-beta (E1 - E0)) is one, E0 and E1 being the energies in the static fields (mc_total_energy, whole chain) before and after; (b) for beta > 0 the mean energy after the run is not below the mean energy before; (c) if the two means are equal then the energy is unchanged for almost every initial state; (d) the probability that the run takes out an energy x or more is at most exp(-beta x); (e) the same as (b) and (d) for the states metropolis_update leaves behind after k updates, up to errors that decrease geometrically in k, with runs that never meet a spin in zero field; (f) the mean energy rises as soon as the run changes the energy of a single state; (g) the energy taken up from an oscillating drive of short period tau within the time t is at most L (K tau (1 + t) + K1 dt^2), K independent of the period and the temperature.", "quantifier": "all couplings without zero bond triples, static fields, drives, ring lengths of at least four, subsystem sizes, time-steps (not only small ones), numbers of updates, energies x and positive temperatures; (f) and (g) for even ring lengths, (f) for non-negative time steps, (g) for the oscillating drives and subsystems within the ring", "why_tests_cant": "The statements are about means over a continuous ensemble and for every drive and number of updates; single runs do cool, and a finite sample cannot tell a small negative mean from zero.", "anchors": ["src/spinchain.rs: update (1774), h_ext (1712), mc_total_energy (1441), metropolis_update (438)", "src/obs.rs: run_sim (1013)"]}
{"id": "C122", "title": "Nearby runs separate at a bounded rate, and distant changes are felt late", "statement": "(a) Two runs of the same driven chain from unit spins that differ by at most E at every site differ by at most exp(4 K t) E after the time t = n dt, where K bounds the couplings; neither the drive nor the time-step enters. (b) If two chains, perhaps of different lengths, with different couplings, fields, drives or initial spins, agree within r sites of some site, then after the time t the spins at that site differ by at most (2 + 2 G t) exp(4 K e^a t - a r) for every a >= 0, G being a bound for the differences of couplings and fields elsewhere. So what happens in the middle of the bath, or the length of the chain, cannot be noticed in the driven subsystem before the time r / (4 e K), however small the time-step (C26 only bounds the spread by three sites per time-step, which is no bound as dt goes to zero).", "quantifier": "all pairs of well-formed chains of even or odd lengths, couplings, fields, drives, unit spins, time-steps dt >= 0, numbers of updates, sites, distances r and a >= 0; runs that meet no vanishing local field", "why_tests_cant": "The bounds hold for all pairs of systems and uniformly in the time-step; a test compares two runs at one time-step, and an influence below its tolerance is invisible.", "anchors": ["src/spinchain.rs: update (1774), even_omega, odd_omega, rotate_even, rotate_odd", "src/spin.rs: rotate"]}
{"id": "C123", "title": "A response run measures the correlations of the thermal state", "statement": "run_sim_response samples spins in the static fields, lets the chain evolve in them until time zero and without them afterwards. (a) Without a drive the waiting before time zero changes no thermal mean at all, whatever the time-step. (b) For every observable and every number of passes after time zero, driven or not, the rate of change of its mean with the strength of the static fields is -beta times its covariance with the energy which the spins had in these fields when they were sampled (fluctuation-dissipation relation, exact for the discrete time-steps and at every field strength). (c) In equilibrium the energy in the static fields falls strictly as the fields are made stronger. (d) Without a drive the linear response of that energy is never larger than at the moment the fields are switched off. (e) Without a drive the linear response at any time of the energy in one set of static fields to another set is that of the energy in the second to the first (reciprocity).", "quantifier": "all well-formed chains with L >= 4 and non-zero couplings ((a), (c), (d), (e): (c) needs L >= 3 only, the others even L), all fields, inverse temperatures ((c): positive), time-steps dt >= 0, numbers of passes, bounded measurable observables ((a): all measurable ones)", "why_tests_cant": "The relations are identities between derivatives of means over all spin configurations; a test sees estimates from finitely many runs with statistical errors.", "anchors": ["src/obs.rs: run_sim_response (942-1011)", "src/spinchain.rs: update (1774), update_no_field (1747), metropolis_update, mc_total_energy"]}
{"id": "C124", "title": "Distant parts of a sampled chain are nearly independent", "statement": "In the thermal state which the Metropolis updates approach, let the couplings and fields add up to at most K at each site. (a) The covariance of any two observables, bounded by C and C', that read blocks of neighbouring sites with n and r sites between them on the two sides is at most ((1+e(n))(1+e(r))-1) C C' with e(n) = exp(4 beta K)(1-exp(-2 beta K))^n: it falls exponentially with the distance, at every temperature and for every disorder (no phase transition). (b) A sum of L terms which each read a site and its right neighbour has a variance of at most a constant times L; the same for the total energy. (c) So the chance that the mean of the terms deviates from its thermal mean by x or more is at most a constant over L x^2. (d) For the program: however the unit spins start, the chance that the energy density mc_total_energy computes after n Metropolis updates is off its thermal mean by x or more is at most that plus a term that vanishes geometrically as n grows.", "quantifier": "all well-formed chains with L >= 2, all couplings, fields, inverse temperatures ((d): non-negative), all bounded measurable observables of blocks", "why_tests_cant": "Bound for all chains, lengths and observables on means over a continuum of spin configurations; a test sees a finite number of samples of one chain.", "anchors": ["src/spinchain.rs: metropolis_update, mc_total_energy, delta_e", "src/obs.rs: run_mc, get_obs"]}
{"id": "C125", "title": "What a part of the chain does, does not depend on how long the rest of it is", "statement": "Take two chains, possibly of different length, with the same inverse temperature and the same couplings and fields on a block of sites and on d further sites on either side of it; elsewhere they may differ in any way. (a) The thermal means of any observable of the block, bounded by C, differ by at most ((1+e(d))^2-1) C with e(d) = exp(4 beta K)(1-exp(-2 beta K))^d. (b) If the chains agree on r + d sites on either side, and the drive there too, then the means of a Lipschitz observable of the block after n calls of update, started from thermal spins, differ by at most that plus the Lipschitz constant times (4 + 4(2K+A)t) exp(4 K e^a t - a r) for every a >= 0, where t = n dt and A bounds the drive: what is measured on the block up to a time does not depend on the length of the bath, up to exponentially small corrections.", "quantifier": "all pairs of well-formed chains with lengths >= 2, all couplings, fields and inverse temperatures, all blocks and distances d, all bounded measurable observables of the block ((b): even lengths >= 4, non-zero couplings, all drives, all numbers of updates)", "why_tests_cant": "Compares means over all spin configurations of two chains of unbounded lengths.", "anchors": ["src/spinchain.rs: metropolis_update, mc_total_energy", "src/config.rs: hsize, ssize"]}
{"id": "C126", "title": "How many Metropolis updates a chain needs", "statement": "Let the couplings and fields add up to at most K at each of the L sites, and r = exp(-26 beta K)/(768 L). (a) In the mean over thermal starts, the squared difference between the mean of a bounded observable after n calls of metropolis_update and its thermal mean is at most (1-r)^(2n) times its thermal variance: the sampler forgets within a number of updates per site that does not depend on the length, at every temperature and for every disorder. (b) The covariance in the thermal state of one observable now and another n updates later is at most (1-r)^n times the product of the standard deviations. (c) Started from spins with density at most exp(A) (with respect to independent uniform spins) the mean of an observable bounded by C after n updates is within C exp(A/2 + beta K L)(1-r)^n of the thermal mean. (d) In particular, started from SpinChain::new with inverse temperature beta0 and run at beta, it is within C d once n >= 768 exp(26 beta K) L ((beta0/2 + beta K) L + log(1/d)): of the order of L^2 updates suffice.", "quantifier": "all well-formed chains with L >= 2, all couplings, fields, non-negative inverse temperatures, all bounded measurable observables, all numbers of updates", "why_tests_cant": "A bound on the mixing time for all chains and lengths; a test sees samples of one chain and cannot tell slow forgetting from equilibrium.", "anchors": ["src/spinchain.rs: metropolis_update, new", "src/obs.rs: run_mc, get_obs"]}
{"id": "C127", "title": "How many samples an estimate needs", "statement": "Let the couplings and fields of a chain made by SpinChain::new from a configuration with inverse temperature beta0 add up to at most K at each of the L sites, and take n samples of an observable bounded by C, `per` calls of metropolis_update apart, at inverse temperature beta, as estim_e2 and the other estimators do, without discarding any. With N = 1 + 768 exp(26 beta K) L / per: (a) the mean square difference between the average of the samples and the thermal mean is at most C^2 (N/n) (11 + 8 (beta0/2 + beta K) L + 6 N/n), over the draws of the new chain and of the updates; the loop does not panic. (b) The average is within d of the thermal mean, except with probability p, once n is at least C^2 N (17 + 8 (beta0/2 + beta K) L)/(p d^2): polynomially many in L, at every temperature and for every disorder. (c) For the energy per site (mc_total_energy, the loop of estim_e2) C can be taken to be K.", "quantifier": "all valid configurations with L >= 2 and non-zero inverse temperature, all draws of couplings and fields and all bounds K on them, all beta >= 0, all bounded measurable observables that do not panic, all per >= 1 and n >= 1", "why_tests_cant": "A statement about the law of the output over all chains, lengths and temperatures; a test sees single outputs and has no thermal mean to compare with.", "anchors": ["src/obs.rs: estim_e2, estim_eh, estim_e", "src/spinchain.rs: metropolis_update, new, mc_total_energy"]}
{"id": "C128", "title": "How many samples per estimate a temperature search needs", "statement": "The searches of find_beta2 and find_betah (bracket from 0.01, or any bracket from 0.01 or 0.0001 to 5, energy per site as estimated by estim_e2) on a chain without disorder, with n samples per estimate taken `per` calls of metropolis_update apart: let couplings and fields add up to at most K at each of the L sites and N = 1 + 768 exp(130 K) L / per. If n >= 16 K^2 N (17 + 8 (beta0/2 + 5 K) L)/(p d^2), then except with probability p over all draws the search does not panic, ends after at most 13 passes, and within 0.0005 of the inverse temperature it returns there is one at which the thermal energy per site is the target up to d. The factor 16 is the number of estimates: the temperature an estimate is asked at depends on earlier estimates only, so the failure probabilities of single estimates add up once each, whatever the number of temperatures that could be asked for.", "quantifier": "all valid configurations without disorder and with non-zero inverse temperature, all K bounding couplings and fields, all targets within reach of the bracket up to d, 0 < d <= K, 0 < p <= 1, all per >= 1 and n >= 1, all normal draws", "why_tests_cant": "The success probability of an adaptive random search over all chains, lengths and targets; a test sees single searches.", "anchors": ["src/obs.rs: find_beta2, find_betah, estim_e2", "src/spinchain.rs: metropolis_update, mc_total_energy, new"]}
{"id": "C129", "title": "Heat capacity per site, and accuracy of the temperature a search returns", "statement": "In the thermal state of a chain of at least three spins the energy per site (mc_total_energy) falls with the inverse temperature at a rate equal to the variance of the whole energy divided by the number of sites. When couplings and fields add up to at most K at each site and no coupling is shorter than j0, this rate lies between exp(-8 |beta| K) j0^2/27 and K^2 (6 + (2 + exp(4 |beta| K)) exp(6 |beta| K)), whatever the length; so energies per site at two inverse temperatures differ by at least and at most fixed multiples of the difference of the temperatures. Consequently the searches of find_beta2 and find_betah, on a chain without disorder and with enough samples per estimate (an explicit number, growing like the square of the length over p eta^2), asked for the energy per site of the inverse temperature bs between the ends of the bracket, return bs up to 0.0005 + eta except with probability p.", "quantifier": "all well-formed chains of at least three spins, all couplings, fields and inverse temperatures of either sign, all K and j0 that bound them; for the search all valid configurations without disorder and with non-zero inverse temperature, all bs in the bracket, 0 < eta <= 5, 0 < p <= 1, all per >= 1", "why_tests_cant": "Variances of thermal distributions of chains of every length and the success probability of an adaptive random search; a test sees single chains and noisy estimates.", "anchors": ["src/spinchain.rs: mc_total_energy, metropolis_update", "src/obs.rs: find_beta2, find_betah, estim_e2"]}
{"id": "C130", "title": "The other samplers are the plain one in another field: updates, samples and searches in the laboratory and rotating frame", "statement": "(a) A call of metropolis_update_maglab does to the spins exactly what metropolis_update with the same draws does to a chain with the same spins and couplings whose static field is -tau/(4 pi) along z at every site; metropolis_update_rot_magnus, when each coupling has equal x and y components, what it does for the field (1 on the subsystem and 0 elsewhere, 0, -2 pi/tau); the update of the Langevin chain what it does without field. The static fields of the chain are neither read nor changed. (b) Hence the numbers of updates after which the mean of a bounded observable over chains made by SpinChain::new is thermal (C126), and the numbers of samples after which an estimate is within d of the thermal mean except with probability p (C127), hold for these samplers, for the thermal state of their own energies, with K bounding couplings plus the field of the frame. For the laboratory frame and the Langevin chain this covers disordered couplings. (c) The searches find_beta_maglab and find_beta_rot, on a chain of at least three spins without disorder of the couplings and with enough samples per estimate, asked for the energy per site that their frame has at the inverse temperature bs between 0.0001 and 5, return bs up to 0.0005 + eta except with probability p.", "quantifier": "all well-formed chains, all draws, all non-zero periods; all valid configurations with non-zero inverse temperature, any disorder of the static field; all beta >= 0, all bounded measurable observables, 0 < d <= C, 0 < eta <= 5, 0 < p <= 1, all per >= 1; for the search of the rotating frame the subsystem is no longer than the chain", "why_tests_cant": "Equality of two samplers for all chains and all real draws, and probabilities of failure of adaptive random searches; a test runs single chains with pseudo-random numbers.", "anchors": ["src/spinchain.rs: metropolis_update_maglab, metropolis_update_rot_magnus, metropolis_update, mc_system_energy_maglab, mc_system_energy_rot", "src/spinchain_langevin.rs: metropolis_update", "src/obs.rs: find_beta_maglab, find_beta_rot, estim_e_maglab, estim_e_rot"]}
{"id": "C131", "title": "Temperature searches with disorder: every estimate draws its own couplings", "statement": "(a) The thermal energies per site of two chains of the same length at the same inverse temperature differ by at most (1 + |beta| k K) times the difference of their couplings and fields averaged over the sites, where k and K depend on the inverse temperature and the size of the couplings and fields and not on the length. (b) The thermal mean of an observable of a site and its right neighbour, bounded by C, differs between them by at most |beta| k C times the largest difference at a site. (c) With variances of the couplings and fields that are not zero, as in the default configuration, each of the estimates of find_beta is made on a chain with newly drawn couplings and fields. If all normal draws are of size at most Z, the chain has at least three spins, every coupling of the chain c is at least j0 long and the number of samples is large enough, then the search asked for the energy per site that c has at bs in [0.01, 5] returns bs up to 0.0005 + (d + 4 Z (jvar + hvar)(1 + 5 k K))/h except with probability p: half the last bracket, the error of the samples and an error in proportion to the disorder, with h a lower bound on the heat capacity per site.", "quantifier": "all well-formed chains with L >= 2 ((c): valid configurations with L >= 3 and non-zero inverse temperature), all couplings, fields and disorder strengths, all draws bounded by Z, all 0 < d <= K, 0 < p <= 1, all per >= 1, all numbers of samples above the bound", "why_tests_cant": "Comparison of thermal means, integrals over all spin configurations, for all couplings and every length, and the probability of failure of an adaptive random search whose estimates belong to different chains.", "anchors": ["src/obs.rs: find_beta, find_betah, estim_e", "src/spinchain.rs: new, metropolis_update, mc_total_energy"]}
{"id": "C132", "title": "Chains with random couplings and fields: the thermal energy per site is self-averaging", "statement": "New chains of one configuration differ by their random couplings and fields. (a) For normal draws the probability that the thermal energy per site of a new chain of L spins at inverse temperature beta is x or more away from a typical value, the same for all chains, is at most 12 L exp(-Z^2/2) + 3 F^2 (jvar^2 + hvar^2)/(L x^2), where F depends on beta and on the size of couplings and fields for draws within Z and not on the length; for independent draws of another law with a finite variance the first term is 6 L times the probability of a draw beyond Z and the second is multiplied by the variance. (b) For bounded draws the typical value is the mean over the draws and the variance of the energy per site is at most 3 F^2 (jvar^2 + hvar^2) Var/L. (c) A temperature search (find_beta, find_betah), each of whose estimates draws its own chain, asked for the typical energy per site at bs, returns bs up to 0.0005 + (d + x + 5 C/q)/h except with probability p over the spins and the samples, for all choices of the couplings and fields but a set of probability at most sixteen times the sum of the probability of a draw beyond Z and q + 1 times the bound in (a). The error of the search due to the disorder so falls with the length of the chains, whereas C131 bounds it in proportion to the strength of the disorder.", "quantifier": "all valid configurations ((c): L >= 3, non-zero inverse temperature, and some j0 > 0 that no coupling falls below for draws within Z), all disorder strengths, all laws of the draws with a finite variance, all x > 0, Z >= 0, q >= 1, 0 < d <= K, 0 < p <= 1, all per >= 1, all numbers of samples above the bound", "why_tests_cant": "Probabilities over random couplings of a quantity, the thermal energy, that is itself an integral over all spin configurations, for every length and strength of the disorder.", "anchors": ["src/spinchain.rs: new, mc_total_energy, metropolis_update", "src/obs.rs: find_beta, find_betah, estim_e"]}
{"id": "C133", "title": "How many points a Monte-Carlo run needs", "statement": "A Monte-Carlo run (run_mc, run_mc_profile) divides mc_points snapshots among its workers, each of which starts a new chain and takes its snapshots a million updates apart. Let K bound couplings and static fields at each site, W = 1 + 768 exp(26 beta K) L / 10^6, and C the size of a column (K plus the size of the drive for the energy of the whole chain, K for the other energies, 1 for the components of spins and magnetisations). If mc_points is at least threads C^2 W (12 + 8 (beta/2 + beta K) L)/(p d^2), then with probability at least 1 - p the run ends without panic, sends exactly mc_points rows, and (a) the average of any of the eleven columns of mc_live.dat is closer than d to the average of the thermal means of that column for the chains of the workers, each counted as often as it takes snapshots; (b) without disorder it is closer than d to the thermal mean for one chain, whatever the number of threads; (c) every number in the rows of the profile, energy of a site and its spin, is closer than d to the same average of thermal means, in whatever order the messages of the workers arrive.", "quantifier": "all valid configurations with beta > 0, at least one thread and at least one point (fewer than 2^31, or fewer than 2^32 in release builds), all lengths L >= 2, subsystems of 1 to L sites ((a), (b)), all normal draws, all columns and sites, all 0 < d <= C and 0 < p <= 1; probability over the uniform draws of all workers", "why_tests_cant": "A probability over the draws of millions of updates in every worker, compared with integrals over all spin configurations, for all configurations and all ways of dividing the points.", "anchors": ["src/obs.rs:1703-1792 run_mc", "src/obs.rs:1603-1701 run_mc_profile", "src/spinchain.rs: new, metropolis_update, total_energy2, mc_system_energy"]}
{"id": "C134", "title": "How many runs an average of the dynamics needs", "statement": "run_sim starts m runs, each of which thermalises a new chain by 20 million Metropolis updates, follows the driven motion and logs it; average makes one table out of the logs. Let the runs need N passes, let K bound couplings and static fields at each site and D the drive, let C be the size of a column (K + D for the two energies, 1 for the components of spins and magnetisations) and b = exp((beta/2 + beta K) L) (1 - r)^20000000 with the rate r = exp(-26 beta K)/(768 L). (a) Except with probability 24 N exp(-m d^2/2), no run panics, the table has N lines of 13 entries, line i (from 0) bears the time -trel + (i+1) dt, and all twelve other entries of all lines are at once closer than (d + b) C to the average over the m chains of the exact mean of that entry after i+1 updates from the thermal state. (b) Without disorder, if b <= d and m >= 2 log(24 N/p)/d^2, then with probability at least 1 - p every entry of the table is closer than 2 d C to the exact mean for one chain, whatever the numbers of the runs.", "quantifier": "all valid configurations with beta > 0, dt > 0, logging on and strob off, 4 <= L, 2 <= s <= L, tables that can be allocated, nonzero couplings, all normal draws, all m >= 1, d >= 0 ((b): d > 0) and p > 0; probability over the uniform draws of all runs", "why_tests_cant": "A probability over the draws of millions of updates in every run, all lines and columns at once, compared with integrals over all spin configurations of nonlinear motions, for all configurations.", "anchors": ["src/obs.rs:1013-1076 run_sim", "src/obs.rs:1436-1510 average", "src/spinchain.rs: new, metropolis_update, update, log"]}
{"id": "C135", "title": "How many rows a histogram of the dynamics needs", "statement": "gen_hist_dynamics makes n new chains, lets each of them move for the N whole steps in t and writes one row for each: its number, the magnetisation per site of the subsystem (columns 1 to 3) and its energy per bond (column 4). (a) For any b bins (measurable sets of numbers, each for one of the columns), except with probability 2 b exp(-2 n d^2) the program does not panic, gives n rows, and in every bin the share of the rows is closer than d to the exact probability of the bin: the probability, over the spins that SpinChain::new draws, that the quantity lies in the bin after N updates, averaged over the couplings and fields of the n chains. (b) Except with probability 8 exp(-n d^2/2), the mean of every column is closer than d C to the exact mean, with C = 1 for the magnetisation and C = K + D for the energy, where K bounds couplings and static fields at each site and D the drive. (c) Without disorder, n >= log(2 b/p)/(2 d^2) rows give the probabilities of b bins for one chain to the accuracy d with probability at least 1 - p. The means are those of the start that SpinChain::new makes, which has not been thermalised.", "quantifier": "all valid configurations with beta != 0, dt > 0, at least one thread, 4 <= L, 2 <= s <= L, N < 2^64, nonzero couplings, all normal draws, all n >= 1, bins, d >= 0 ((c): d > 0) and p > 0; probability over the uniform draws of all chains", "why_tests_cant": "A probability over all draws compared with integrals over all spin configurations of a nonlinear motion of any length, for all configurations and all bins.", "anchors": ["src/obs.rs:605-671 gen_hist_dynamics", "src/spinchain.rs: new, update, m, system_energy"]}
{"id": "C136", "title": "How many trajectories the energy estimate needs", "statement": "trajectory_mean_e thermalises m new chains by 20 million Metropolis updates each, follows them for 1000 periods and returns the mean of the subsystem energies that they send once a period. Let the period be P whole steps, let K bound couplings and static fields at each site and D the drive, and let b = exp((beta/2 + beta K) L) (1 - r)^20000000 with r = exp(-26 beta K)/(768 L). (a) Except with probability 2 exp(-m d^2/2), no worker panics, 900 m energies are received, and in whatever order they arrive the result is closer than (d + b)(K + D) to the exact mean: the energy per bond of the subsystem after k P + 1 updates from the thermal state, averaged over the thermal state, over k = 100, ..., 999 and over the couplings and fields of the m chains. (b) Without disorder, if b <= d and m >= 2 log(2/p)/d^2, then with probability at least 1 - p the result is closer than 2 d (K + D) to the exact mean for one chain.", "quantifier": "all valid configurations with beta > 0, dt > 0, tau = P dt, P >= 1, 1000 P < 2^64, 4 <= L, 2 <= s <= L, nonzero couplings, all normal draws, all m >= 1, all orders of arrival, d >= 0 ((b): d > 0) and p > 0; probability over the uniform draws of all runs", "why_tests_cant": "A probability over the draws of millions of updates in every run, compared with integrals over all spin configurations of nonlinear motions, for all configurations and orders of arrival.", "anchors": ["src/obs.rs:477-539 trajectory_mean_e", "src/spinchain.rs: new, metropolis_update, update, system_energy"]}
{"id": "C137", "title": "How many runs a two-point average needs, and that it needs a relaxation time", "statement": "two_point_average makes a table of the means of x(t) x(0) out of the logs of run_sim. With the names of C134 (N passes, K, D, C, b): (a) if the relaxation time is M whole steps, 1 <= M <= N, and dt >= 1e-5, then except with probability 24 N exp(-m d^2/2) no run panics, two_point_average succeeds, its table has N lines of 13 entries, line i (from 0) bears the time (i + 1 - M) dt, and all twelve other entries of all lines are at once closer than (d + b) C^2 to the exact mean, over the thermal state and the m chains, of the product of the logged quantity after i + 1 updates with the same quantity after M updates. (b) Without a relaxation time, as in the default configuration, the line at time zero is the first one, which is skipped: as soon as one log of run_sim is among the files, two_point_average panics.", "quantifier": "all valid configurations with beta > 0, dt >= 1e-5, logging on and strob off, 4 <= L, 2 <= s <= L, nonzero couplings, all normal draws, all m >= 1 and d >= 0; probability over the uniform draws of all runs. (b): all valid configurations with dt >= 1e-5, t > 0, logging on, strob off, 1 <= s <= L, and all random numbers", "why_tests_cant": "A probability over the draws of millions of updates in every run, all lines and columns at once, compared with correlation functions of a nonlinear motion, for all configurations.", "anchors": ["src/obs.rs:1326-1434 two_point_average", "src/obs.rs:1013-1076 run_sim", "src/spinchain.rs: new, metropolis_update, update, log"]}
{"id": "C138", "title": "How many response runs show the relaxation after the static fields are switched off", "statement": "run_sim_response sets the clock back to -t after the warm-up, makes N passes up to time t, before time zero in all fields and from then on without the static ones, and logs each; average makes a table out of the logs of m runs. With the names of C134 (K, D, C, b): (a) except with probability 24 N exp(-m d^2/2) no run panics, average succeeds, its table has N lines of 13 entries, line i (from 0) bears the time -t + (i + 1) dt, and all twelve other entries of all lines are at once closer than (d + b) C to the exact mean, over the thermal state and the m chains, of the logged quantity after i + 1 passes. (b) Without disorder and with b <= d, m >= 2 log(24 N/e)/d^2 runs give all entries to 2 d C, except with probability e. (c) Without a drive the exact means of all lines at times that are not positive are those in equilibrium in the static fields. (d) Without a drive the rate of change with the strength of the static fields of the exact mean of a column of magnetisations (columns 3 to 12), in any line after time zero, is -beta times the covariance, in equilibrium, of this column at that time and the energy in these fields at time zero.", "quantifier": "(a), (b): all valid configurations with beta > 0, dt > 0, logging on and strob off, 4 <= L, 2 <= s <= L, tables that can be allocated, nonzero couplings, all drives, all normal draws ((b): jvar = hvar = 0), all m >= 1, d and e; probability over the uniform draws of all runs. (c), (d): all well-formed chains of even length L >= 4, nonzero couplings, dt > 0, all strengths, lines and columns", "why_tests_cant": "A probability over the draws of millions of updates in every run, all lines and columns at once, compared with the means of a nonlinear motion in two different fields, for all configurations.", "anchors": ["src/obs.rs:942-1011 run_sim_response", "src/obs.rs average", "src/spinchain.rs: new, metropolis_update, update, update_no_field, log"]}
{"id": "C139", "title": "The default configuration is usable", "statement": "With the default configuration, whatever the draws, SpinChain::new succeeds with a chain of 512 spins whose subsystem has 8 sites and whose log file is log<num>.dat; a run of run_sim does not panic, makes exactly 12800 steps and writes 12801 rows of 13 numbers, row i (from 0) at time i/50; a run of run_langevin with any damping that is not negative does the same with rows of 8 numbers; a run of run_ext writes one row and then 12800 blocks, the i-th at time i/50 and with one line for each of the sites 1 to 7.", "quantifier": "all run numbers, all uniform and normal draws, all noise histories, all dampings >= 0", "why_tests_cant": "All draws of twenty million warm-up updates and of the random couplings; a test runs one seed.", "anchors": ["src/config.rs:67-95 Default for Config", "src/spinchain.rs: SpinChain::new", "src/obs.rs: run_sim, run_ext, run_langevin"]}
