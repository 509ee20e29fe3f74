# DESIGN — formal model of PapillonNDL in Lean 4

## 1. Layout

* `lean/Verif/Model/*.lean` — the model: one small total function per C++ function; every definition cites the
  file and lines of `/repo` it models and says where it simplifies.
* `lean/Verif/Spec/*.lean` — independent specifications (predicates a reader can check against the English property
  without reading the proofs; they never call the model's helpers).
* `lean/Verif/Lemmas/*.lean` — helper lemmas.
* `lean/Verif/Props/*.lean` — the property theorems, one section per property `Cxx`, each beside an `example` that a
  concrete, non-trivial case meets its hypotheses; where the shipped code violates the English property, the negation is
  proved with a concrete witness (`Cxx_violation…`) and the strongest true weaker statement is named `…_partial`.
* `MANIFEST.json` maps properties to theorems; `seeded/LOG.jsonl` records the wrong-program experiments.

## 2. How C++ is modelled

* **Outcomes.** Functions return `Except Err α`, `Err = exc | ub | nonfinite | diverge`:
  `exc` = a `PNDLException` (or another C++ exception) is thrown; `ub` = undefined behaviour (out-of-range index,
  iterator before `begin`, read through a dangling span); `nonfinite` = a division by zero (IEEE gives inf/NaN; we make it a distinct
  outcome rather than totalising it, and the model stops there; C140 and C141 use a second model, `Model/Ieee`, that goes on with infinities and
  NaNs, because there such a value becomes a search key). Loops whose termination is not structural take fuel or are proved terminating.
* **Numbers.** `double` is modelled by an exact ordered field: `ℚ` or any linearly ordered field where only `+ - * / <` occur,
  `ℝ` where `log`, `exp`, `sqrt`, `cos`, … occur. *Overflow and NaN inputs are modelled only in C155 and C157 (`Model/Fpu.lean`: rounding, overflow, special values, any library); floating-point rounding is otherwise modelled only in `linearize` and in C128–C133, C150 and C162–C169
  (`Model/Float.lean`, `Model/FloatKin.lean`: any round-to-nearest function applied to every operation, no fused multiply-add).* Properties that
  only use comparisons (searching, bracketing, sortedness) are proved for every linear order, so they hold for
  non-NaN doubles as they are. Machine integers that can wrap (`uint8_t`, `uint32_t`, the 63-bit LCG) are modelled with their wrap-around.
* **Containers.** `std::vector`/`std::array`/`std::span` are `List`; `v[i]` is `getAt`, which is `ub` out of range.
  `std::lower_bound`/`upper_bound` are modelled by the libstdc++ bisection loop and proved equal to the partition point on sorted input.
* **Randomness.** A `std::function<double()>` is a list/stream of draws; sampling functions consume from it. Statements about the distribution of sampled
  values (C103 on) put on the streams the product measure of the uniform distribution on `[0, 1]` (`Measure.infinitePi`): independent, exactly uniform draws. The shipped
  generator is deterministic, so this is an idealisation of the caller's `rng`.
* **Files.** ACE binary files are byte lists; `double`s in them are opaque 64-bit patterns.

## 3. Per-property plan

| Id | What is modelled | Statement and proof method |
|---|---|---|
| C01 | `ZAID` with `uint8_t Z`, `uint32_t A` | arithmetic, `omega`; order = lexicographic |
| C02 | `Element`, `Isotope` constructors | case analysis, iff |
| C03 | `Nuclide(ZAID)`, `Nuclide::zaid`, element table | for every Z (table), all A, all levels: arithmetic on the decode loop; negation witnesses (U135m2) |
| C04 | same | violated: witness ZAID(92,1135); partial: A<=300 or A in the normal isomer window |
| C05 | `Element(string)`, regex parsing as a scanner | table check in the kernel + decimal round-trip induction |
| C06 | LCG state machine incl. `advance` | induction / modular geometric sums |
| C07 | LCG mod 2^63 | Hull–Dobell for 2^k via 2-adic valuation of geometric sums |
| C08 | generate_canonical over the 63-bit LCG | arithmetic on k/2^63 (exact) |
| C09 | `XSPacket` operators | component algebra; unary minus violated -> witness + partial |
| C10 | `save_binary`, `read_binary` over bytes | encoder/decoder round trip by induction over records |
| C11 | `save_binary` as a state step | violated (temperature divided in place) -> negation + partial for the other fields |
| C12 | zaid reconstruction | integer division facts |
| C13 | `read_binary` record loop | violated -> witness; partial: record lengths dividing up |
| C14–C17 | `Histogram … LogLog` | real analysis: `intervalIntegral`, log/exp algebra, monotonicity |
| C18–C22 | `Tabulated1D` | list induction over regions and brackets |
| C23 | spans as heap references | heap model; violated -> witness; partial for moves |
| C24–C25 | `Polynomial1D`, `Sum1D`, … | polynomial integration, linearity |
| C26–C27 | `linearize` work-list | invariant over steps; well-founded measure on a finite order |
| C28 | `EnergyGrid` | hashed search = full search, any monotone hash |
| C29–C31 | `CrossSection` | bracketing + linear interpolation |
| C32–C34 | `PCTable` | bisection, quadratic inversion over ℝ |
| C35–C39 | angle laws, `Legendre`, `AngleDistribution` | clamps, convex combination, Legendre identities |
| C40–C43 | energy laws | interval arithmetic, rejection loop invariant |
| C44–C48 | frame transforms, `Vector`, elastic TAR kinematics | real algebra |
| C49 | `Elastic` setters | state machine histories |
| C50 | `ElasticDBRC::max_xs_value` | maximum over piecewise-linear |
| C51–C53 | `NDLibrary` | list minimum, cache histories |
| C54 | `SerpentLibrary` stream loop | token-stream model; violated for trailing newline |
| C55–C57 | `STNeutron` | index table invariants |
| C58 | `URRPTables` | band search and balance |
| C59–C62 | fission, spectra, mixtures | algebra over lists |
| C63–C64 | `KalbachTable`, `EnergyAngleTable` | bracketing; sinh/cosh integral |
| C65–C66 | TSL elastic laws | bracketing and linear bounds |
| C67 | incoming-energy bracketing | index arithmetic |
| C68 | `PNDLException` message wrapping | string loop invariant |

| C69 | `Maxwellian/Evaporation/Watt::pdf` | Mathlib interval integrals, derivatives of erf/exp/sinh primitives; Maxwellian violated -> exact integral + iff |
| C70 | `NBody::pdf` | Beta integrals (Gamma function values) for n = 3, 4, 5 |
| C71–C72 | `CMDistribution`, frame Jacobians | `HasDerivAt` of the kinematic map; violated (evenness in mu) -> witnesses + partial |
| C73 | `ElasticSVT`, `ElasticDBRC` samplers | loop invariants over the random stream |
| C74 | `LevelInelasticScatter` | real algebra |
| C75 | `STNeutron(ace, nuclide)` | invariant of the two reaction loops |
| C76–C80 | record readers (nu, yields, families, law chains, law parameters) | layout predicates on XSS, induction over records |
| C81–C84 | marginals, unit-base windows, joint densities | interval integrals cell by cell |
| C85–C86 | thermal inelastic laws | readers by induction; sampling by case analysis of the brackets; probabilities as interval lengths (measure of the set of draws) |
| C87 | `STThermalScatteringLaw` | composition of the parts |
| C18 (2) | `Region1D`/`Tabulated1D` verification | exact acceptance conditions of each interpolation law (`C18_law`, `C18_regions`, `C18_one_law`) |
| C88 | order, equality, hash of `Element`, `Isotope`, `Nuclide` | lexicographic order, `omega` |
| C89 | `ACE::read_ascii` over a character stream (`>>`, `getline`, `substr`) | scanner lemmas by induction over tokens and lines; short/garbled files -> witnesses |
| C90 | `populate_symbol_lists`, `symbol_to_zaid`, `list_neutron_data` … | list membership; violated for symbols the parser rejects -> witnesses |
| C91 | `mcnp_library` directory parsing | token/line induction, continuation lines; column and duplicate defects -> witnesses |
| C92 | `angle_distribution` ACE constructor and the three laws it reads | induction over the locators; equality with the public constructors; empty record -> violation |
| C93 | ACE constructors of energy bins, tabular energy, N-body, photon | induction over tables; equality with the public constructors; unsorted tabular -> violation |
| C94 | ACE constructors of Kalbach and tabular energy-angle | as C93; isotropic locator -> violation |
| C95 | `EnergyBins.pdfAt`, `genEvapPdf` | interval integral over consecutive bins, interpolation of two densities, scaling; repeated bounds -> violation |
| C96 | `Uncorr` | case analysis, Mathlib interval integrals for marginal and normalisation |
| C97 | `RxnBase.makeAce`, `loadAce`, `lawsAce`, `lawAce` | induction over the chain of laws against the relational spec `LawIs`/`LawChain`; fission yield -> violation |
| C98 | `Photon` | case analysis |
| C99 | `Nuc.makeAce` | simulation: the constructor reading XSS simulates the constructor on contents (C55-C60); loop invariants for where a reaction comes from |
| C100 | `Nuc.makeShared` | same simulation and invariants |
| C101 | `Nuc.evaluateE`, `EGrid.readAce` | C28 and C57 through the simulation |
| C102 | `STN.make`, `Nuc.makeAce`, `Nuc.makeShared` | folds succeed iff every step does; backwards simulation |
| C103 | `evapSample`, `wattSample`, `maxwellSample` and their densities | probability space of independent uniform draws; rejection theorem (`iid_reject`); gamma-law calculus |
| C104 | `NBody.sample`, `NBody.pdf` | quotient of independent gamma variables is beta distributed (`gInt_beta`) |
| C105 | `Legendre.sample`, `findMax`, `positive`, histories of `set_moment` | rejection theorem; `\|P_n\| ≤ 1` and derivative bounds from the Legendre equation; uniqueness of densities for the converse |
| C106 | `URR.make` on encoded blocks | induction over the tables, column by column (`Spec.UrrBlock.encode` is the format) |
| C107 | `parseSerpent`, `regOfRow`, `neutronEntries`, `tslEntries`, `awrOf` | from C54, line by line, lines described by `Spec.LineSays` |
| C108 | `PCTable.sample`, `PCTable.pdfAt` on i.i.d. uniform streams | inverse-CDF theorem `unif_inverse` (measures agree on half lines) on top of C33 |
| C109 | `AngleDist.sample`, `AngleDist.pdf` over all four law types on i.i.d. streams | each law is `Closed` with its density (inverse CDF, rejection), mixture theorem `closed_mix` for the energy interpolation |
| C110 | `TabEnergy.sample`, `TabEnergy.pdfAt` on i.i.d. streams | law of each table (C108), affine change of variables `densityOn_affine`, mixture; the mass of what is reported from C83 |
| C111 | `Uncorr.sample`, `Uncorr.pdf` on i.i.d. streams; `Spec.SamplesJoint` | what a method leaves of the stream is independent of what it returned (`closed_bind`), so the joint law is the product of the two laws, which has the product density |
| C112 | `Multi.sample`, `Multi.pdf`, `SFS.sample`, `NDist.toAE`, `RxnBase.sample` on i.i.d. streams | induction over the components: the numbers falling to a component have its weight as measure, what follows is independent of the choice (`draws_pick`); mixture of densities `mixLaw_joint` |
| C113 | `Kalbach.sample`, `Kalbach.pdfAt` on i.i.d. streams; `Spec.SamplesJoint` | the energy inverts a cumulative (`pctable_law`), the cosine given the energy has the Kalbach-Mann density (`kmCosine_law`), Tonelli combines them (`joint_draw`), an affine map carries the window (`joint_stretch`), and the choice of table mixes the laws (`closed_mix`) |
| C114 | `EATable.sample`, `TabEnergyAngle.sample`, `TabEnergyAngle.pdfAt` on i.i.d. streams | as C113; the angular table is a measurable function of the energy (`angleIndex_exists`), the first number being outside the cumulative with probability one |
| C115 | `URR.evaluate` (as C58) against an independent interpolation formula `Spec.urrBetween` on the bands picked by `Spec.BandAt` | cell search characterised by `lowerBound_unique`; the mean by integrating the step function `xi ↦ band` by induction on the cdf |
| C116 | the thermal constructors (Model/Thermal) against the separate file description Spec/ThermalFile (`TslHolds` layout, `TslGood` contents, `TslIs` object) | each reader characterised by an iff (`bind_iff`), lists by induction; assembled in `law_iff` |
| C117 | Model/CMDist over any faithful `AE`; law of the samples under independent uniform draws | the frame change is a diffeomorphism of the moving off-axis particles onto themselves (`boost_back`, `boost_fderiv`); change of variables for lintegrals (`joint_boost`), the axis and particles at rest being null |
| C118 | `NDist` (all laws, mixtures, both frames) through `RxnBase.sample` | composition of C108-C114 (`any_faithful`, `mix_faithful`) with C117 |
| C119 | `svtSample` as modelled for C73; law of the returned velocities under independent uniform draws | Gamma laws of the two reduced-speed samplers, mixture, variable-length rejection loop (`closed_loop`), spherical coordinates about the neutron direction (`lintegral_velocity`) |
| C120 | `dbrcSample` over the modelled energy grid and cross section | law of a rejection loop around C119 (`dbrc_closed`: weight min(looked-up value, majorant)), then C28, C31, C50 |
| C121 | `Elastic.sample` with the modelled `AngleDist` as its angular sampler | composition of the angular law (C109) with the azimuth and the deterministic collision (C48), then the affine image of the cosine |
| C122 | `Elastic.sample` with `AngleDist` and the modelled broadeners | composition of the broadener's law (C119, C120), the angular law (C109) and the azimuth with the deterministic collision, written with explicit axes across the direction of motion; the events of zero relative or outgoing speed are shown to be null |
| C123 | as C122, with an isotropic angular distribution | C122 averaged over directions (Archimedes' theorem on the sphere, `sphere_average`), then the symmetry of the pair of velocities in centre-of-mass coordinates (`pairRate_symm`): rotations, translations and reflections preserve the volume of velocities |
| C124 | `MCNPLibrary(fname)` on the whole text (regular expressions as greedy scanners), `atomic_weight_ratio` | first-occurrence search, induction over the ratio list, stream reading as C89; rows by C91; key words in the wrong place -> witnesses |
| C125 | `STCoherentElastic`, `STIncoherentElasticACE`, `DiscreteCosinesEnergies`: `sample_angle_energy` | the index drawn as a measurable function of one uniform number, its law a finite sum of point masses (`finite_law`, `floor_law`); a choice followed by further draws (`closed_finite`); mean by integration |
| C126 | `ContinuousEnergyDiscreteCosines`: `sample_angle_energy`, both interpolations | the energy is the inverse of the cumulative (`pctable_law`), the cosines a measurable function of it through the cumulative; the event probability as an iterated integral over the three or four uniform numbers (`draw3`, `draw4`), the index integrated out by `floor_law` |
| C127 | `EquiprobableEnergyBins`, `GeneralEvaporation`: `sample_energy` against `pdf` | the draws that give a value in an event are a finite union of rectangles (`binEvent_eq`); their product measure is compared cell by cell with the integral of the reported density (`bins_prob`); the interpolating draw mixes two tables (`iid_choice`), the temperature is a change of variables |
| C128 | `CrossSection::operator()`, `LinLin::interpolate` with every operation rounded by an arbitrary round-to-nearest function | error analysis of subtraction (`fl_sub_error`, exact near underflow), quotient (`frac_fl`) and product; signs and bounds by monotony of rounding (`fl_mono`, `fl_le`, `le_fl`) |
| C129 | `static_cast<uint32_t>(n * rng())` and `(n - 4) * rng() + 2`, rounded | the largest random number is `1 - 2^-53`; `n (1 - 2^-53)` is below the midpoint between the largest number below `n` and `n`, whatever the tie rule |
| C130 | `hash_energy_grid`, `get_lower_index`, every operation rounded, `std::log`/`std::exp` any functions with a stated error | induction on the bins bounds the drift of the repeated product (`bound_error`); the error of the computed bin; then the exact search theorem `C28_search` |
| C131 | `Elastic::sample_angle_energy` and `Vector`, every operation rounded; `cos`, `sin` arbitrary | the rounded root of the rounded square of a number is not below the number (`sqrt_sq_fl`: a gap argument on 53-bit significands), so the computed speed is not below any component (`mag_ge`), whatever was computed before |
| C132 | `CMToLab::transform`, every operation rounded | calculus of relative errors (`Near`: product, quotient, root, sum, rounding) through the twelve roundings, compared with the exact C45; concrete 53-bit computations, each rounding pinned by `fl_round`, `fl_sqrt_round`, for the violations |
| C133 | `PCTable::sample_value` with every operation rounded | lower end: the rounded root of the rounded square is the number itself (`sqrt_sq_fl`, `sqrt_sq_fl_le`) and rounding is monotone; accuracy: the slope, its reciprocal and the products as factors within `(1-2^-53)^-k` of 1 (`Near`), then absolute errors through the root and the cancellation (`lin_chain`); violations: 53-bit computations |
| C134 | `rng()` by any number of threads as an interleaving system: a step reads the engine's state, the next stores its successor and returns | invariant over all schedules: shared state and all private copies are iterates of the start state, bounded by the number of returned values; serial schedules by induction; replay by computing the schedule for every `n` |
| C135 | `load_STNeutron`/`load_STTSL` by any number of threads: lookup and test of the entry, reading and storing the table, returning the entry are the steps | invariant over all schedules (entries own objects built for that entry, fresh identities, threads inside a load point at their table); serial schedules by `call_run` and C16 |
| C136 | all readers of the reaction blocks, all laws they can build, `ReactionBase::sample_neutron_angle_energy` | a calculus of programs without `ub` outcome (`Lemmas/NoUB`), the shape invariants each reader establishes, then every sampler over that shape; violations by explicit file and by explicit stream |
| C137 | the readers and samplers of C136 | the range of each sampler's cosine (C35, C42, C43, C82, frame change C34/C38), by induction over the nesting of distributions the readers build |
| C138 | `STThermalScatteringLaw(ace)` with its parts and the `sample_angle_energy` of each | shape invariants of the readers (C65, C66, C85, C86, C87) and the calculus of programs without `ub` (`Lemmas/NoUB`); violation by an explicit file |
| C139 | as C138 | ranges from the checks the readers make (C65, C66, C85), the clamp of the continuous law; the unconditional form needs no hypothesis because a sample that returns has met the needed lengths |
| C140 | the three `pdf` with the tables' `pdf` over finite numbers, infinities and NaN (`Model/Ieee`) | a relation `Ext` (same value, same error except non-finite) kept by every step; case analysis of the search key; exact iff; violations by one-value tables |
| C141 | `Kalbach::sample_angle_energy` with `sample_energy`, `R`, `A` over finite numbers, infinities and NaN (`Model/Ieee`) | as C140; the drawn energy is NaN iff the slope of the density is `+inf` (then `0 * inf`); violation by a table with a rising step |
| C142 | `RxnBase.makeAce` then `sample` of every law, `CMDist.sample`, delayed families | lower bound of each tabulated inverse by its first value; unit-base scaling keeps it; log/cos terms of the spectra have the right sign; the lab transformation returns a square |
| C143 | `RxnBase.makeAce` then `sample` of every law, `CMDist.sample`, delayed families | totality of each law by cases on its search and interpolation; `cmToLab` is defined unless the particle stops (`Stopped`); induction over the distribution |
| C144 | `collect` (the loop of calls), all sampling methods with a proved law | a call is `Closed`: value and remaining stream are jointly distributed as the product of the law and fresh uniforms; induction on the number of calls (`Closed.many`); for any data, the chances of a call form a measure (`callLaw`, from C151 and the measurability calculus of C152) |
| C145 | `toolReaction`, `toolElastic`, `toolCoherent`, `toolIncoherent`, `toolInelastic`, `toolMain` (tools/src/spndl.cpp) | the loop is characterised by `Successive` (induction on the number of samples); laws from C144; witness file `Example.file` |
| C146 | Model/LibraryNuc (library cache holding the nuclides and laws made by Model/NucAce and Model/Thermal, heap of nuclides, setters) | invariant over histories (every loaded nuclide is made from its file alone or sharing with the first one, up to its elastic settings); independence of cross sections from the sharing by C99/C100 |
| C147 | all laws and readers of Model/AceLaws; `cpow` with negative bases | what the readers guarantee (WFDist) and an interpolation weight in [0,1] for energies in any order (bisection lemma on unsorted lists); one lemma per law, induction over mixtures and frames |
| C148 | `Nuc.promptSpectrum`: the spectrum chosen by `Fission` as an `AngleEnergy`, over the reactions of the nuclide | C99/C100 for which reactions, C31 and C101 for the cross sections used, C61/C112 for the mixture, C136/C137/C142/C147 for the components |
| C149 | the densities of every law as the file readers build them (existing models); range of each law as a separate specification (`Spec.Reach`) | from the definitions: outside the interpolated window the scaled energy is outside both tables; mixtures by induction; frame by the formula of the transformation; violations with accepted data |
| C150 | `Model/FloatBase.lean`: the weight, the interpolated ends, the choice of the table and the rescaling with every operation rounded | monotonicity of rounding: the rounded difference of the ends is at least minus the lower end, the weight and the fraction lie in [0,1]; `C133_lower` for the drawn value |
| C151 | all samplers of the model, as functions of a stream and a position | `Spec.Replay` is closed under reading a number, sequencing, branching on values read and fuelled loops (`Lemmas/Replay.lean`); each sampler is put in that form |
| C152 | all samplers of the model, as functions of a stream and a position | each sampler is measurable in the stream (`MRes` calculus, `Lemmas/MRes.lean`) and only uses what it consumes (C151), so the event of the first call depends on a stopping prefix and the stream after it is again iid and independent (`Replay.independent`) |
| C153 | the ACE object with its block accessors (`Model/AceObj.lean`), between the readers (`Model/AceText.lean`, `Model/AceBinary.lean`) and the constructors (`Model/NucAce.lean`, `Model/Thermal.lean`) | both readers fill in an object that depends only on the written values (C89, C10); the layout of the ACE format (`Spec/AceObj.lean`, counted from 1) gives `FileHolds`, then C99 |
| C154 | Grid object with its start of the unresolved region (absent for the vector constructor) and re-hashing | Induction over the calls; nuclides read from files with a UNR block |
| C155 | The analytic spectra over numbers with infinities and NaN, every operation rounded, the library functions arbitrary | Sign analysis of every operation, monotone rounding; loops by induction |
| C156 | Modes of `sopenmc` with OpenMC's data and samplers as parameters; warnings of both programs | Scaling of the frame change; induction over the samples, with the state of the particle in the elastic mode |
| C157 | The cosine of Kalbach-Mann data over the same numbers as C155, with a correctly rounded square root | Sign analysis; `fl(sqrt(fl(t²+1))) = -t` by the spacing of doubles (`Lemmas/FloatSqrt.lean`) |
| C158 | Heaps of broadeners and elastic distributions with the counts of `shared_ptr`, variables and pointers of a program, one step per statement | Invariant: each count is the number of owners; induction over the program |
| C159 | Contents of the file at each crash point of `save_binary`; `read_binary` on them | Induction over the records with the number of bytes left; closed form of the bytes of XSS among the first t |
| C160 | Python's sequence protocol over the bound `operator[]`; conversions in the trampolines | Induction over the iteration |
| C161 | `binsSample`, `AngleDist.sample`, `Elastic.sample` on independent uniform draws; windows in Spec/AngleBins | the draw is cut into 33 cells, each mapped affinely; equality with the reported density is compared on the first and last bin and forces all widths to be 1/33; mixtures and kinematics by the closed-sampler calculus |
| C162 | `CohElastic.sampleFl`, `IncElastic.sampleFl`: every operation rounded by `fl`, to nearest, ties to even | error of each operation in units of 2^-53; near the ends the numbers are integers of that unit and a case analysis on parity (mirror_gap) and on the order of interpolated neighbours (mix_cross) leaves at most one unit, which ties-to-even rounds back |
| C163 | `STN.evaluateFl`, `computeFissionFl`, `URR.evaluateFl`: every operation rounded by `fl` | each interpolated entry by C128_interpolation; the remainder by monotonicity of rounding (total <= elastic + absorption iff the rounded difference is at most absorption) and the error bound of a difference of doubles; the sums by the error bound of a sum of doubles |
| C164 | `Multi.sampleFl`, `SFS.sampleFl`: every operation of the choice rounded by `fl`; the weights of a mixture are whatever doubles the functions return | the running sum is monotone, fixed by adding zero, and within one relative rounding per addition (`Near`); induction over the components; shares by the error bound of a quotient, with underflow |
| C165 | `sampleBinsFl`, `EnergyBins.sampleFl`, `genEvapSampleFl`, `AngleLaw.sampleFl`, `AngleDist.sampleFl`: every operation rounded by `fl` | core lemma: the computed width times the draw, computed, is not above the true width -- either the width is a double, or the product rounds strictly below the computed width, which is nearest to the true one; Legendre by induction on the fuel |
| C166 | `DiscreteCE.sampleFl`, `ContinuousCE.sampleFl` (both interpolations): every operation rounded by `fl` | interpolation from C128 and an absolute error budget for the cosine; weight above one half: either half of the rounded spacing is a double and nearness of the two roundings orders them, or the numbers are small multiples of 2^-1074 and exact; shift by the Sterbenz argument |
| C167 | `maxwellSampleFl`, `evapSampleFl`, `wattSampleFl`, `NBody.sampleFl`: every operation rounded by `fl`, the library's functions arbitrary within `SoundLibm` | sign of the sum of logarithms survives rounding since the first logarithm is itself a double; acceptance by `rejLoop_ok`; products of draws stay normal; quotient x/(x+y) rounded is at most 1 |
| C168 | `polyEvalFl`, `polyIntegrateFl`, `Level.makeFl`, `Level.sampleFl`, `Photon.sampleFl`: every operation rounded by `fl` | induction on the coefficients for Horner's rule with relative and underflow budgets; exponents are small integers, hence exact; monotonicity of rounding for the rest |
| C169 | `EATable.sampleFl`, `TabEnergyAngle.sampleFl`: every operation rounded by `fl` | lower ends from C133's lemmas on the two formulas; unit-base scaling from C150 |
| C170 | `CohElastic.xs` and `CohElastic.sample` (as in C65, C125) | the law of C125 is a finite sum of point masses; integrate any `g` against it and multiply by C65's cross section |
| C171 | `Elastic.sample` with `AngleDist.sample` (as in C48, C121) | the joint law of C121 and the fundamental theorem of calculus for the laboratory cosine |

## 4. Where the shipped code violates a property

For each of these a negation is proved with a concrete witness (or, where stated in MANIFEST.json, for every case of a class), and the strongest
true weaker statement is named `…_partial`.

| Property | Defect |
|---|---|
| C03/C04 | ZAID codes of some level-2 isomers decode to another nuclide; a ZAID can produce a level above 2 |
| C09 | `XSPacket::operator-()` negates only part of the packet |
| C11 | `save_binary` divides the stored temperature in place |
| C13 | the binary reader trusts record markers larger than the declared XSS |
| C16, C22 | `LogLin` flat integral is 0/0; repeated abscissae inside a region give 0/0 |
| C20 | histogram tables do not reproduce the last tabulated value from the left |
| C23 | copies of `Tabulated1D` keep spans into the source |
| C26, C27 | empty grid; overflow of the mid point never terminates |
| C29, C31, C50 | 32-bit truncation of the index; extrapolation below the grid; majorant misses the first value |
| C32, C35, C41, C82, C86 | constructors accept tables whose density does not cover the cumulative |
| C36, C40 | bin index computed with one bin too many |
| C38, C49 | setters that throw after having changed the object, or that do not check |
| C43 | `NBody` accepts `Ap < 1` |
| C46, C71 | inverse of the frame map: `||` where `&&` is meant, spurious roots, even in mu |
| C51, C52, C54 | nearest temperature with repeated temperatures; load picks the first within tolerance; trailing newline registers a row twice |
| C55, C56 | sharing constructor leaves zeros in the MT list; MT above 891 writes out of range |
| C58, C59, C61 | URR ranges; nu given three times; only the first fission partial enters the density |
| C63, C65, C66, C84, C85, C87 | highest outgoing energy, first Bragg edge, single incoming energy, LinLin sampling outside the density, empty tables, missing elastic block |
| C38, C105 | Legendre density negative between two of the 2001 cosines looked at |
| C69, C83, C103 | Maxwellian normalisation (`erf(x)` for `erf(sqrt x)`); missing Jacobian in unit-base densities |
| C80 | `GeneralEvaporation` bounds read one place early |
| C89 | a truncated or garbled text file leaves default values instead of an error (a non-integer in NXS or JXS makes the whole XSS array zero); entries without an `E` are misread |
| C90 | listed names that the look-up by name refuses |
| C91 | rows with an unexpected number of columns, repeated rows; extensions of more than five characters are only partly removed |
| C92 | an angular record with zero energies is accepted |
| C93 | tabular energy law read from a file does not check the order of incident energies |
| C94 | isotropic angular table (locator 0) in a correlated law is not recognised |
| C95 | repeated bin bounds give a density that is not a number |
| C97 | fission reactions report a yield of 19 |
| C107 | Serpent directory: the isomeric state column is ignored, tables of isomers become tables of the ground state |
| C108 | tables with inconsistent density and cumulative values are accepted and sampled from another law |
| C109 | equiprobable angle bins are not sampled from the density they report |
| C110 | TabularEnergy::pdf between two tables of different widths is not the density of the sampled energies |
| C111 | Uncorrelated with a Maxwellian energy law reports a negative joint density near the restriction energy |
| C112 | MultipleDistribution accepts weights that do not add up to one; what they leave goes to the last component when sampling but is not reported; SummedFissionSpectrum::pdf is not the density of what it samples |
| C113 | Kalbach::pdf between tables of different widths lacks the ratio of the widths, and for linear tables interpolates products of density and angular density while the sampler interpolates the factors |
| C114 | TabularEnergyAngle::pdf between tables of different widths lacks the ratio of the widths; for linear tables the sampler takes the angular table of the nearer end in cumulative probability, the density a weighted mean of both |
| C115 | log-log tables: at a tabulated energy the band is replaced by 0 when the band of the next table is 0 (`C115_violation_node`) |
| C116 | a file with a negative inelastic cross section is accepted (`C116_violation_negative`) |
| C118 | a Kalbach law between tables of different widths is drawn from another density than reported (`C118_violation`) |
| C120 | with the window reaching below the grid the first line is extrapolated and compared with a maximum that ignores the first value: with cross section 5 at 3 and 1 at 4 and a neutron at 1, the plain free gas is returned, also where the cross section is zero (`C120_violation_below`) |
| C124 | ratios with exponents or without a point truncate the list silently; 'directory' or 'datapath' inside the data path breaks the file (`C124_violation_*`) |
| C126 | the entry of energy and density zero that the constructor adds in front of a table whose cumulative starts above zero does not belong to the cumulative: sampled energies exceed the largest tabulated one (`C126_violation_added`) |
| C127 | a call returns an energy with probability `1 - 1/n` only, whatever the data: the bin index is drawn among the `n` bounds, not the `n - 1` bins (`C127_violation`, `C127_violation_evaporation`) |
| C130 | two energies `E < E'` between 16 and 32 MeV have the same computed logarithm (pigeonhole: 2^52 numbers, 5·2^49 + 1 values); on every grid that ends at `E'` the look-up of `E` computes bin `NBINS` and reads `bin_pointers_[NBINS + 1]`, past the end (`C130_violation`) |
| C131 | straight backscattering in the centre of mass by a target of atomic weight ratio 1 at rest: the computed velocity is exactly zero and the cosine is 0/0 (`C131_violation`) |
| C132 | Ein = 20, A = 15, emission straight ahead with 29 MeV: cosine `1 + 2^-52` (`C132_violation_cosine`); Ein = 5, A = 1, emission straight back just below 5/4 MeV: energy `-2^-52`, cosine NaN (`C132_violation_energy`) |
| C133 | densities `0.8` and the next double on `[0, 1.25]`: the largest random number is sampled as 2.5 (`C133_violation_range`); densities `1` and `1 + 2^-52` on `[0, 1]`: every random number in (0,1) is sampled as 0 or 1 (`C133_violation_collapse`) |
| C134 | thread `t` reads the state, thread `u` draws `n` numbers, `t` stores: `t` gets the first of these numbers, and `u` draws the others again (`C134_violation_replay`) |
| C135 | two threads find the entry empty before either fills it: the table is read twice and they hold different objects (`C135_violation`) |
| C136 | an angular block with 0 energies is accepted and every sample then reads out of range (`C136_violation_empty`); the random number 0 with a law-61 reaction reads entry -1 (`C136_violation_zero`) |
| C138 | a table with a single outgoing energy is accepted, every sample reads out of range (`C138_violation_single`) |
| C140 | tables with one outgoing energy are accepted; `pdf` then searches for NaN and reads before the table, for every argument (`C140_violation`, `C140_violation_kalbach`) |
| C141 | a table whose density rises at a repeated energy is accepted; draws inside that step make `R(NaN)` read before the table (`C141_violation`) |
| C142 | an accepted file giving law 3 (level) in the lab frame: below the offset the sampled energy `C2 (E - C1)` is negative (`C142_violation`) |
| C143 | an accepted level reaction in the CM frame below its offset: square root of a negative number (`C143_violation`) |
| C145 | `spndl reaction` with an absorption reaction exits with 0 and saves zeros (`C145_violation`) |
| C146 | elastic settings of the first nuclide leak into tables loaded later; loading order can lead to an out-of-range access |
| C147 | a Maxwell spectrum just above its restriction energy, a mixture with a negative weight, a Kalbach ratio above 1 and the CM cosine density with g > 1 report negative densities |
| C148 | the prompt spectrum of partial reactions reports only the first open partial's share of the density, and divides 0/0 up to the lowest threshold |
| C149 | `NBody::pdf` with four bodies is positive for every outgoing energy above the kinematic maximum ((Emax - E)^2 is not cut off); the unit-base laws (`TabularEnergy` and likewise the correlated ones) map every outgoing energy onto a neighbouring table that holds a single energy, so their density is positive everywhere |
| C150 | a spectrum of tables ending at 1.25 whose densities differ in the last bit gives the energy 2.5 (`C150_violation`) |
| C154 | `EnergyGrid(vector)` never sets `urr_start_energy_`: `has_urr`/`urr_min_energy` read an indeterminate value; blocks of two energies are announced and never used (`is_valid` wants more than two), blocks starting at the last grid energy are used and not announced (`C154_violation_vector`, `C154_violation_block`) |
| C155 | A random number equal to zero makes `NBody::sample_angle_energy` return NaN as the energy (`inf / inf`); `rng` may return 0 (`C155_violation_nbody`) |
| C156 | `spndl` warns of thermal laws above 4 MeV instead of 4 eV, and in the elastic modes; `sopenmc` warns of the asymptotic approximation from a millionth of 400 kT on (`C156_violation_warnings`) |
| C157 | In binary64 `A = 0` gives NaN; where `sinh(A)` overflows backward draws give NaN; where `T*T` overflows they give `+1`; and from `(2ξ-1) sinh(A) <= -2^28` on, `T + sqrt(T*T+1)` cancels and every draw gives `-1` (`C157_violation_zero`, `C157_violation_overflow`, `C157_violation_sign`, `C157_violation_cancel`, `C157_violation_example`) |
| C158 | The copy constructor of `STNeutron` shares the `Elastic`: a setter called on a copy changes the original (`C158_violation_copy`); a reference from `elastic_doppler_broadener()` dangles after the setter (`C158_violation_reference`) |
| C159 | A truncated binary file is never refused: lost entries become zeros (`C159_violation_silent`), short files are undefined (`C159_violation_undefined`); saving over a file first destroys it (`C159_violation_overwrite`) |
| C160 | `EnergyGrid` and `CrossSection` have `__getitem__` without a bound check and no `__iter__`: iterating over a grid reads past its end (`C160_violation_iterate`), over a cross section never ends (`C160_violation_iterate_xs`); `PyEnergyLaw::pdf` refuses `None` (`C160_violation_none`) |
| C161 | C161_violation_iff, C161_violation_full: cosines from equiprobable bins have another law than reported unless all bins are 1/33 wide; C121_violation_bins: so have the energies after elastic scattering |
| C163 | a total that is elastic plus absorption rounded up leaves a positive inelastic cross section (C163_violation) |
| C164 | rounded probabilities need not reach 1, and what is left over goes to the last component even if it is impossible (C164_violation, C164_violation_fission) |
| C165 | with n equiprobable bounds a draw of at least (n-1)/n reads past the end, whatever the rounding (C165_violation) |
| C166 | a discrete outgoing energy can be rounded to 0 at a tabulated incoming energy (C166_violation) |
| C169 | the energy of a tabulated energy-angle law can be twice the largest tabulated energy when two neighbouring densities differ in the last bit (C169_violation) |
| C170 | at the last Bragg edge the coherent elastic cross section contains the step of that edge, which sampling never draws (C170_violation_last_edge) |

## 5. What is modelled and what is not

Modelled (function by function, with citations in each file of `lean/Verif/Model`): `zaid.hpp`, `element.*`, `isotope.hpp`, `nuclide.hpp`, `prng.hpp/rng`,
`xs_packet.hpp`, `pndl_exception.hpp`, ACE binary read/write (`ace.cpp`), `interpolation.hpp`, `tabulated_1d`, `region_1d`, `polynomial_1d`, `sum_1d`, `difference_1d`,
`constant.hpp`, `linearize.cpp`, `energy_grid`, `cross_section`, `pctable`, `legendre`, `angle_table`, `equiprobable_angle_bins`, `isotropic`, `angle_distribution`,
`equiprobable_energy_bins`, `tabular_energy`, `maxwellian`, `evaporation`, `watt`, `general_evaporation`, `level_inelastic_scatter`, `nbody`, `frame.hpp`, `vector.hpp`, `cm_distribution`,
`elastic`, `elastic_svt`, `elastic_dbrc`, `kalbach(_table)`, `energy_angle_table`, `tabular_energy_angle`, `multiple_distribution`, `summed_fission_spectrum`, `reaction(_base)`, `fission`,
`delayed_family`, `st_neutron`, `urr_ptables`, `st_coherent_elastic`, `st_incoherent_elastic_ace`, `discrete_cosines_energies`, `continuous_energy_discrete_cosines`, `st_incoherent_inelastic`, `st_thermal_scattering_law`,
`absorption`, `discrete_photon`, `uncorrelated`, the ACE constructors of all the above (whole `STNeutron(ace)` and `STNeutron(ace, nuclide)` from the XSS array, without the ZAID),
`nd_library`, `serpent_library`, `mcnp_library`, text ACE reader (`read_ascii`), the symbol lists of `nd_library`; the sampling tool `tools/src/spndl.cpp` (which loop fills which
row, which requests are refused, which status is returned).

Not modelled: OpenMC and the HDF5 look-up of `tools/src/sopenmc.cpp` (parameters of C156), and in both programs the argument parser and the NPY writer; floating-point rounding (except in `linearize`, C128–C133, C150, C155, C157 and C162–C169), overflow and NaN inputs (except in C155 and C157); file-system access; the Python bindings (except indexing, iteration and the trampolines of laws, C160); threads, except that any number of threads
calling `rng()` or loading from one library are modelled as interleavings of atomic steps (C134, C135; the library has no synchronisation of its own, and C++ gives data races
no meaning: those theorems describe the best case); `std::stod`/`std::stoi` number parsing is abstract (a parameter of the model).

## 6. Trusted base

* Lean 4.33.0's kernel; the axioms `propext`, `Classical.choice`, `Quot.sound` (Mathlib's standard three) and no others.
* The reading of the C++ source: the model is hand-written from `/repo` and tied to it only by the citations.
* The semantics assumptions of §2.
