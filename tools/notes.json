{
 "C01": {
  "note": "Injectivity and order agreement for A<1000; total-order laws unconditionally; hash abstract."
 },
 "C03": {
  "note": "Exact iff characterisation of the round trip, with the collision and two decoded-to-another-nuclide witnesses for the excluded nuclides."
 },
 "C04": {
  "status": "partial",
  "note": "False of the code for ZAID-constructed nuclides (witnesses C04_violation, C04_violation_wrap); proved for the other constructors and for the window of encoded isomers, with tightness."
 },
 "C05": {
  "note": "Complete iff specification of the string constructors plus round trips; regexes modelled by scanners proved equal to the declarative languages."
 },
 "C09": {
  "status": "partial",
  "note": "Unary minus violates the additive-inverse law (C09_violation_neg); all other laws proved, and unary minus characterised exactly (C09_neg_iff)."
 },
 "C10": {
  "note": "Floating point temperature scaling abstract (mulT/divT on bit patterns)."
 },
 "C11": {
  "status": "partial",
  "note": "False of the code: save_binary divides temperature_ in place (C11_violation, C11_violation_second_save); the other members are unchanged. C11_violation_nuclide: a nuclide made from the object after saving has the divided temperature."
 },
 "C13": {
  "status": "partial",
  "note": "Exact characterisation for every byte string (C13_iff): the reader leaves its arrays, or uses a number it has not read, exactly for files shorter than 312 bytes, files that declare entries and end before the first record length, and files with a record larger than the room left. C13_file_safe_partial is the safe side (hypotheses met by every file with fitting records, C13_file_hypotheses, in particular saved ones, C13_saved_records_fit). Missing: the files on the other side, for which the claim is false (C13_iff, concrete witness C13_violation)."
 },
 "C15": {
  "note": "Histogram has no inverse and is excluded; degenerate (flat) data characterised by C15_flat_data."
 },
 "C16": {
  "status": "partial",
  "note": "Exact equality proved for all rules except: LogLin with y1=y2, where the code computes 0/0 (C16_violation_flat_loglin), and LogLog with exponent within 1e-12 of -1 but not equal, where a two-sided bound is proved (C16_loglog_near)."
 },
 "C19": {
  "note": "Includes totality on admissible data; C19_zero_abscissa shows why admissibility (no zero abscissa under a log law) is needed."
 },
 "C20": {
  "status": "partial",
  "note": "False of the code for Histogram (C20_violation_histogram, C20_violation_witness); proved for the other four laws."
 },
 "C22": {
  "status": "partial",
  "note": "False of the code for repeated abscissae inside a region (C22_violation, 0/0); proved for jumps at region boundaries."
 },
 "C18": {
  "note": "Valid breakpoints: throw or tile; success on positive increasing data; two memory-unsafety witnesses for invalid breakpoints."
 },
 "C23": {
  "status": "partial",
  "note": "False of the code: spans are copied memberwise, so copies and linearized tables dangle (C23_violation_copy, C23_violation_linearize, both for every table and every prior history). Proved: originals are safe under every history, copies while the source lives."
 },
 "C25": {
  "note": "Expression trees of any depth; tables at the leaves are covered on intervals inside their domain (C25_table)."
 },
 "C26": {
  "status": "partial",
  "note": "Proved for every f, tolerance and non-empty input, with exact and with rounded abscissae, down to the returned table (C26_table); the empty input reads out of range (C26_violation_empty)."
 },
 "C27": {
  "status": "partial",
  "note": "Termination proved for every f and tolerance over correctly rounded binary floating point numbers (any tie rule) as long as sums do not overflow; false when they do (C27_violation_overflow)."
 },
 "C28": {
  "note": "Exact logarithms and exponentials; C28_search is independent of how the bin bounds were rounded. Grids starting at zero and zero bins are excluded by the property and shown to fail. The excluded bin counts fail: zero divides by zero (C28_zero_bins), 2^32-1 wraps around and every look-up inside the grid is undefined behaviour (C28_max_bins)."
 },
 "C29": {
  "status": "partial",
  "note": "Exact iff for every index below 2^32; the constructor truncates the index to 32 bits before checking it (C29_violation)."
 },
 "C31": {
  "status": "partial",
  "note": "False of the code below the grid (extrapolation) and at the threshold energy (returns 0): C31_violation_below, C31_violation_threshold; agreement proved everywhere else, and the second clause unconditionally."
 },
 "C32": {
  "status": "partial",
  "note": "False of the code: the constructors do not require the CDF to start at 0 nor the PDF to cover it (C32_violation_*). Proved for all covered tables; exact iff for the out-of-range read; necessity of the condition for histogram cells (C32_tight)."
 },
 "C35": {
  "status": "partial",
  "note": "Every returned cosine is in [-1,1] unconditionally; definedness fails for tables violating C32's condition (C35_violation)."
 },
 "C36": {
  "status": "partial",
  "note": "False of the code: sample_mu uses 33 instead of 32 and ignores the bin width (C36_violation_*); the reported density is proved."
 },
 "C38": {
  "status": "partial",
  "note": "False of the code: coefficients are changed before the exception, and positivity is tested at 2001 points only (C38_violation_*)."
 },
 "C40": {
  "status": "partial",
  "note": "False of the code: floor(bounds.size()*xi) indexes past the last bin exactly for xi >= (n-1)/n (C40_undefined_iff, C40_violation_bins, C40_violation_evaporation); proved for all smaller draws."
 },
 "C41": {
  "status": "partial",
  "note": "Proved for tables whose density covers the cumulative; false of the code for one-value tables (C41_violation, 0/0)."
 },
 "C42": {
  "note": "Partial correctness for every stream; never returns below the restriction energy (C42_no_return); candidates are positive for positive parameters."
 },
 "C43": {
  "status": "partial",
  "note": "Acceptance iff proved; energies are a fraction in (0,1] of Emax for every stream in (0,1); the code accepts Ap<1, where Emax and all energies are negative (C43_violation)."
 },
 "C67": {
  "note": "Index, weight and neighbour characterisation; single-energy grids proved out of range."
 },
 "C44": {
  "note": "Round trips both ways whenever the transforms are defined; the exact domain is proved (C44_defined); an emission that exactly stops the particle in the target frame is 0/0 (C44_undefined)."
 },
 "C46": {
  "status": "partial",
  "note": "False of the code: the inverse keeps spurious roots at mu=0, of the wrong sign, and is an even function of mu (C46_violation_*); soundness, mapping back and completeness proved under stated side conditions."
 },
 "C48": {
  "note": "Exact collision kinematics over the reals: momentum and energy conservation for every target velocity and CM direction; target-at-rest special case; definedness."
 },
 "C49": {
  "status": "partial",
  "note": "Histories of setters keep the state valid except for the unchecked setters: threshold, temperature (C49_violation_*), and a zero-cross-section DBRC hangs (C49_violation_hang)."
 },
 "C50": {
  "status": "partial",
  "note": "Majorant proved for intervals inside the grid with index 0; false when the interval reaches below the grid (first value missed), and when the cross section starts above the grid's first point (index out of range)."
 },
 "C51": {
  "status": "partial",
  "note": "Proved for lists without repeated temperatures (every T); false with a repeated temperature (C51_violation), which a Serpent file with a final newline produces (C54_violation_temperatures)."
 },
 "C52": {
  "status": "partial",
  "note": "Found iff within tolerance is proved; the nearest is selected only when one temperature is within tolerance; otherwise the lowest (C52_first, C52_violation): the code compares temperatures[i] with itself."
 },
 "C53": {
  "note": "State machine over arbitrary histories with failing reads; also distinctness of objects, sharing of the first loaded distributions, definedness."
 },
 "C54": {
  "status": "partial",
  "note": "Character-level stream model. Proved without trailing white space; false with a final newline: the last new line is registered twice (C54_violation, for every such file); termination proved for every file."
 },
 "C55": {
  "status": "partial",
  "note": "Look-up proved for every constructible object and every mt against the file's MTs; against mt_list proved except mt=0 of sharing objects, where it is false (C55_violation_shared). MTs above 891 in a file write outside the index array (C55_violation_range)."
 },
 "C56": {
  "status": "partial",
  "note": "Proved for direct construction of fissile files or files without fission MTs; the sharing constructor inserts one 0 per reaction (C56_violation_shared), and a file without fission data loses its fission MTs (C56_violation_nonfissile)."
 },
 "C57": {
  "note": "Balance, totality, non-negativity, also through the hashed look-up."
 },
 "C58": {
  "status": "partial",
  "note": "Reader, search (for energies in any order), interpolation and balance proved; false for logarithmic tables with a non-positive energy and for table ranges below the smooth grid."
 },
 "C60": {
  "note": "Also MT 18 present and non-fissile nuclides. Grid size below 2^32 (the index is stored in 32 bits)."
 },
 "C75": {
  "note": "Proved for every constructible object."
 },
 "C59": {
  "note": "Consistent unless the file gives total, prompt and delayed nu all three; proved violation in that case (stored as given). What is stored is what the file gives.",
  "status": "partial"
 },
 "C76": {
  "note": "Caveat theorem: an unknown interpolation number is silently a histogram."
 },
 "C79": {
  "note": "Caveat theorem: a cyclic chain never terminates."
 },
 "C80": {
  "note": "Violation proved: GeneralEvaporation reads its bounds one place early and rejects every law starting at zero; the other laws proved.",
  "status": "partial"
 },
 "C61": {
  "status": "partial",
  "note": "Selection probabilities proved (interval lengths are cross-section shares). pdf/angle_pdf use only the first open partial: proved violation; mixture only when one partial is open. Zero total cross section gives 0/0."
 },
 "C62": {
  "note": "Construction iff, selection, exact selection probabilities (Lebesgue measure), weighted densities, absence iff."
 },
 "C71": {
  "status": "partial",
  "note": "For 0<=g<1 the value is lab density at mu plus that at -mu (proved, hence over-reported); violations proved: even in mu, negative for g>1, absent density reported as 0. Joint density and sampling proved."
 },
 "C72": {
  "note": "Derivative / determinant identities via HasDerivAt; regular points only (singular directions excluded by hypotheses)."
 },
 "C74": {
  "note": "Energy balance, threshold and construction."
 },
 "C69": {
  "status": "partial",
  "note": "Evaporation and Watt proved normalised. Maxwellian: exact integral proved; normalised iff E-U = T (code uses erf(x) for erf(sqrt x)); negative density proved for (E-U)/T <= 1/4."
 },
 "C70": {
  "note": "n = 3, 4, 5, via substitution; Emax > 0 needed for the density to exist."
 },
 "C73": {
  "note": "Acceptance in [0,1], the law of the returned velocity, DBRC window and acceptance against the majorant (window at or above the first grid energy; below it see C50)."
 },
 "C63": {
  "status": "partial",
  "note": "Joint densities defined/non-negative/zero outside for every argument except the highest energy of LinLin tables; violations proved: highest energy, random number 0, unchecked sizes."
 },
 "C64": {
  "note": "Formula, non-negativity, normalisation, exact inversion of both branches' cumulatives, range. Caveats proved: a = 0 is 0/0; R>1 gives negative densities."
 },
 "C81": {
  "note": "Kalbach: slopes non-zero; EnergyAngleTable: sizes match (the constructors from vectors do not check it, see C63)."
 },
 "C82": {
  "status": "partial",
  "note": "Proved for usable tables; violations: zero slopes, random number 0 for EnergyAngleTable, inconsistent tables."
 },
 "C83": {
  "status": "partial",
  "note": "Exact value of the integral proved for TabularEnergy (C83_mass), Kalbach (C83_kalbach_mass) and TabularEnergyAngle (C83_angle_mass). For TabularEnergy it is 1 iff the tables have the same width or only one counts (C83_normalised_partial, C83_violation); for the joint densities it equals angle_pdf strictly between tables of different widths iff the angular densities are in proportion to the widths (C83_kalbach_iff, C83_angle_iff). Missing: the remaining cases, where the claim is false (missing Jacobian)."
 },
 "C84": {
  "status": "partial",
  "note": "False of the code for LinLin: violation proved for a whole interval of random numbers; proved for histogram tables."
 },
 "C65": {
  "status": "partial",
  "note": "Proved for every energy except the first edge itself; violation there proved. Also the exact edge probabilities and the reading from the file."
 },
 "C66": {
  "status": "partial",
  "note": "Smearing, reading and sampling proved with at least two incoming energies; a single one reads out of range (violation proved)."
 },
 "C85": {
  "status": "partial",
  "note": "Well-formedness, file layout, selection probabilities and ranges proved for non-empty tables; a file with no outgoing energies is accepted and sampling reads out of range (violation proved)."
 },
 "C86": {
  "status": "partial",
  "note": "Reading proved in full (with the added zero point); sampling proved for usable tables; violations: negative energies below half the lowest incoming energy (for every law), one-point tables, flat start of the cumulative."
 },
 "C87": {
  "status": "partial",
  "note": "Flags, total, absent parts, layout, well-formedness proved for every accepted file; that every file is accepted or refused is false: mode 4 without an elastic block is undefined behaviour (violation proved)."
 },
 "C88": {
  "note": "Added after seeded bug M012 (isomer level dropped from Nuclide::operator<) survived."
 },
 "C89": {
  "status": "partial",
  "note": "Exact reading proved for all three header forms and every well-formed numeral. Refusal holds only when two or more numbers are missing or the file ends with its last number; proved violations: one number missing before a final newline is accepted with a 0, a non-number is accepted and everything from there on is 0, a non-integer among NXS and JXS is accepted and makes the whole of XSS 0 (added after R004 and R015 survived), a missing E is accepted and shifts the array, truncated IZAW uses uninitialised variables, a short second line of a 2.0 header is read out of range."
 },
 "C90": {
  "status": "partial",
  "note": "Proved for every ZAID whose decoded isomer level is at most 2 and for every thermal name of 1-6 word characters. Violations proved: ZAID 1601 is listed as H1m3 which is refused; thermal names longer than six characters are cut, so they are never found or another law is found."
 },
 "C91": {
  "status": "partial",
  "note": "Registration proved for all layouts with 10-11 columns, continuation lines included. Violations proved: entries with 7-9 columns pass the check and then abort the construction on an empty temperature; an entry listed twice is registered twice, which makes nearest_temperature answer wrongly (C51); of an extension longer than five characters only five are removed (C91_registered_partial restated on the name itself after R044 survived). The rest of the file: C124."
 },
 "C92": {
  "status": "partial",
  "note": "Proved for all well-formed records with sorted or unsorted energies. Violation proved: a record with no energies is accepted and every later use is undefined behaviour."
 },
 "C93": {
  "status": "partial",
  "note": "Bins, N-body and photons: full equality with the public constructors. Tabular: equality for ordered incident energies; violation proved: unordered incident energies, refused by the public constructor, are accepted from a file."
 },
 "C94": {
  "status": "partial",
  "note": "Kalbach: full. Correlated tables: equality when no angular table is given as isotropic; violation proved: an angular locator of 0 (isotropic) is not recognised, the reader decodes the number before the block as a table head."
 },
 "C95": {
  "status": "partial",
  "note": "Proved for strictly increasing bounds. Violation proved: repeated bounds pass the constructor and give a density that is not a number."
 },
 "C96": {
  "note": "Construction, sampling, product, marginal and normalisation, for all factors."
 },
 "C97": {
  "status": "partial",
  "note": "Assembly proved as an equivalence for all well-formed chains; TYR = 0; threshold; frame. Violation proved: for fission (TYR = +-19) the reported yield is 19 neutrons."
 },
 "C98": {
  "note": "Acceptance is an equivalence; sampling exact."
 },
 "C99": {
  "note": "Full constructor from the XSS array. Distributions of the individual laws: C92-C97. Laws of the delayed families by their numbers: C99_delayed (added after R060 survived)."
 },
 "C100": {
  "note": "The MT comparison in Reaction(ace, indx, egrid, reac) can never fail and ZAIDs are not compared, so the other nuclide may be a different one (C102_shared asks for nothing of the kind)."
 },
 "C101": {
  "note": ""
 },
 "C102": {
  "note": "If and only if for the direct constructor (C102_accept) and for sharing (C102_shared_iff, when file and nuclide agree on being fissile); sharing accepts negative temperatures, and a non-fissile file can never share with a fissile nuclide (C102_shared_mismatch)."
 },
 "C103": {
  "status": "partial",
  "note": "Proved for Evaporation and Watt. The Maxwellian samples sqrt(e) exp(-e/T) truncated and normalised (C103_maxwell_partial), which is what it reports if and only if E - U = T (C103_violation_maxwell), because the reported normalisation uses erf(x) for erf(sqrt x)."
 },
 "C104": {
  "note": "Random numbers are independent and uniform on [0,1] (Measure.infinitePi)."
 },
 "C105": {
  "status": "partial",
  "note": "For every object that can be built, sampling follows pdf if and only if pdf is nowhere negative and nowhere above the bound found on 2001 cosines (C105_iff); this is so for every non-negative density of up to five moments (C105_low_order) and for every accepted linear one (C105_linear). False in general: accepted densities can be negative between the 2001 cosines (C105_violation_negative)."
 },
 "C106": {
  "note": "Blocks with no bands (np = 0) are excluded: cdf[0] of an empty vector is undefined behaviour (the model says so)."
 },
 "C107": {
  "status": "partial",
  "note": "Proved for files without isomers that do not end in white space (C107_listed_partial). The isomeric state column is read and ignored: the tables of Am242m1 are listed as tables of Am242 and none is listed for Am242m1 (C107_violation_isomer, C107_violation_example). Number conversions are abstract."
 },
 "C108": {
  "status": "partial",
  "note": "The constructor accepts tables whose density does not belong to their cumulative values; those are sampled from another law (C108_violation: values outside the table with probability at least 1/4)."
 },
 "C109": {
  "status": "partial",
  "note": "Sound laws: isotropic; consistent tables within [-1, 1]; Legendre expansions that are nowhere negative and nowhere above the sampling bound (C105 says when). Equiprobable bins are not sampled from the density they report because of the factor 33 and the missing bin width (C109_violation_bins: 32 bins of equal width; C161_violation_iff: every set of bins except those of width 1/33)."
 },
 "C110": {
  "status": "partial",
  "note": "The exact law of the sampled energies is proved for consistent tables (C110_law): the densities of the two tables carried to the interpolated window with their Jacobians. It is the reported one if and only if one table alone counts or both have the same width (C110_iff), because pdf leaves the Jacobian out; C110_violation is a concrete case."
 },
 "C111": {
  "status": "partial",
  "note": "Proved for sound angular laws (C109) with evaporation and Watt spectra and with tables of equal width (C111_samples_partial). C111_violation_maxwell: with a Maxwellian the reported joint density is not the one sampled. Tables of different widths: C110_violation."
 },
 "C112": {
  "status": "partial",
  "note": "C112_iff: with faithful components the mixture is sampled as reported if and only if the weights add up to one at this energy (nothing checks it; C112_violation). C112_reaction_partial: reactions in the laboratory frame with uncorrelated and N-body laws; Kalbach and tabulated energy-angle laws and the centre of mass frame are missing. C112_fission: SummedFissionSpectrum samples the right mixture, and does not report it (C112_violation_fission)."
 },
 "C113": {
  "status": "partial",
  "note": "C113_law gives the law of the samples for all consistent tables, histogram or linear. C113_iff: for histogram tables it is the reported density if and only if only one table counts or both have the same width. C113_violation: for linearly interpolated tables the reported density is a different one; C113_violation_widths: so it is between tables of different widths."
 },
 "C114": {
  "status": "partial",
  "note": "C114_table and C114_law give the law of the samples for all consistent tables, histogram or linear. C114_iff: for histogram tables it is the reported density if and only if only one table counts or both have the same width. C114_violation: for linear tables cosines of reported density zero are sampled half of the time; C114_violation_widths: between tables of different widths."
 },
 "C115": {
  "status": "partial",
  "note": "Values and mean proved; at a tabulated energy the table's band is proved for linear interpolation. C115_violation_node proves it is lost for log-log tables when the next table's band is zero."
 },
 "C116": {
  "status": "partial",
  "note": "Acceptance (iff) and contents proved for every layout; C116_violation_negative proves that a negative inelastic cross section is accepted and returned."
 },
 "C117": {
  "status": "proved",
  "note": "Change of variables with the Jacobian of C72; the region is stated exactly. The angular density angle_pdf of the same class is wrong (C71)."
 },
 "C118": {
  "status": "partial",
  "note": "Holds for laws sharing a window of energies, weights summing to one, consistent tables (histogram in the joint laws), at grid energies or between tables of equal width; elsewhere the code violates it (C103, C110, C112, C113, C114, C118_violation)."
 },
 "C119": {
  "status": "proved",
  "note": "Law of the rejection loop under independent uniform draws, over exact reals."
 },
 "C120": {
  "status": "partial",
  "note": "Proved for cross sections on a strictly increasing positive grid with values from the first grid point, when the window starts within the grid and the cross section is positive on an interval of it. Missing: windows reaching below the grid, where the code draws another law (C120_violation_below: velocities are kept where the cross section is zero), and cross sections starting above the first grid point (undefined behaviour, C50_violation_index)."
 },
 "C121": {
  "status": "partial",
  "note": "Proved for angular distributions on a sorted grid of energies whose laws draw the density they report (isotropic, Legendre and tables with the supported rules, as for C109); the isotropic case is proved without further assumption. Missing: equiprobable-bin laws, which draw another density than they report (C161_violation_iff, C121_violation_bins); the law actually drawn is C161_elastic_rest_partial."
 },
 "C122": {
  "status": "partial",
  "note": "Proved for angular distributions whose laws draw the density they report (as for C121) and, for ElasticDBRC, under the conditions of C120. Missing: equiprobable-bin angular laws, which draw another density than they report (C161_violation_iff; law actually drawn: C161_elastic_gas_partial), and the windows excluded in C120."
 },
 "C123": {
  "status": "proved",
  "note": "Over exact reals and independent uniform draws; the target-at-rest approximation switched off. C123_finite shows the rates compared are finite, C123_certain that the call returns with probability one."
 },
 "C124": {
  "status": "partial",
  "note": "Proved for files in which the three key words first occur at their places, with ratios written with a point and no exponent and a path without the word 'datapath'. Violations proved: a ratio with an exponent is read without it and ends the list; a ratio without a point or a ZAID of other than 4-6 digits ends the list silently; the word 'directory' in the data path (or anywhere before) makes the construction fail; the word 'datapath' inside the path is cut out of it. Characters beyond ASCII in the path are not modelled."
 },
 "C125": {
  "status": "partial",
  "note": "Proved for tables with at least two energies (incoherent elastic) and for non-empty tables (discrete inelastic), and for structure factors that do not decrease. Missing: tables the constructors accept but the samplers read out of range, violations C66_violation_single and C85_violation_empty. Rounding is not modelled."
 },
 "C126": {
  "status": "partial",
  "note": "Proved for tables with at least two energies whose tabulated cumulative is the integral of the tabulated density. Missing: other tables the constructor accepts; C126_violation_added shows that the entry the constructor itself adds when the cumulative starts above zero breaks this and makes the sampler leave the tabulated energies."
 },
 "C127": {
  "status": "partial",
  "note": "The energies that are returned follow the reported density exactly: every event has 1 - 1/n times its probability, n being the number of bounds. Missing: the remaining share 1/n of the calls, which read past the end of the bounds (C127_violation, C127_violation_evaporation)."
 },
 "C128": {
  "status": "proved",
  "note": "C128_above_neighbours shows that the two roundings are needed: under ties-to-even the computed value can be above both neighbouring values by an ulp."
 },
 "C129": {
  "status": "proved",
  "note": "C129_skewed_last shows that the skewed draw can reach an index that exact arithmetic never draws that way."
 },
 "C130": {
  "status": "partial",
  "note": "Proved for every energy with no other grid energy within a relative distance of about (4 NBINS + 12) delta (4e-9 for the default 8192 bins and a correctly rounded library). Missing: energies closer than that to a grid energy; C130_violation proves that the code reads past the end of the bin table for some energies just below the top of the grid, with any library accurate to 1/8."
 },
 "C131": {
  "status": "partial",
  "note": "Proved with no hypothesis on the inputs for every returned energy above 2^-998 MeV. Missing: a neutron that is stopped; C131_violation: exact backscattering by a proton at rest divides zero by zero."
 },
 "C132": {
  "status": "partial",
  "note": "Proved for forward emission in the centre of mass: energy and cosine are within a relative 2^-49 of the exact ones, so the cosine is at most 1 + 2^-49. Missing: cosine <= 1 (C132_violation_cosine: 1 + 2^-52 is returned, there is no clamp) and backward emission (C132_violation_energy: a negative energy and a NaN cosine where the exact energy is positive)."
 },
 "C133": {
  "status": "partial",
  "note": "Proved for all tables: never below the lower end of the cell (C133_lower). Proved with an explicit tolerance: C133_accuracy_partial, a few units in the last place for constant densities and 2^-47 max(p)^2/min(p) W/|p1-p0| for linear ones. Missing: a bound that does not blow up as p1 tends to p0, which is false of the code (C133_violation_range: twice max_value() is returned; C133_violation_collapse: a density uniform up to its last bit returns only its two end points)."
 },
 "C134": {
  "status": "partial",
  "note": "Proved for all schedules: the j-th number handed out is among the first j+1 numbers of the single-threaded sequence (C134_in_sequence). Proved for calls that do not overlap: exactly that sequence, whichever threads call (C134_serial_partial). Missing: overlapping calls, where the claim is false of the code (C134_violation_replay: a thread delayed inside rng() while another draws n numbers gets a number handed out already and makes the other draw its last n-1 numbers again; n arbitrary). Reads and writes of the state are atomic steps in the model; C++ gives racing accesses no meaning."
 },
 "C135": {
  "status": "partial",
  "note": "Proved for all schedules: no load reads out of range, data comes from the selected table, one object never stands for two tables (C135_right_table). Proved for loads that do not overlap: outcome, library and order are those of one thread, and no table is read twice (C135_serial_partial). Missing: sharing under overlap, false of the code (C135_violation: two threads read the same table twice and hold different objects)."
 },
 "C136": {
  "status": "partial",
  "note": "Proved for every file, reaction, energy and stream, with the conditions the constructors do not check as hypotheses: at least one (or two) incident energies per law, cumulatives that do not begin above 0, breakpoints that cover the table, and equiprobable-bin draws below the last bin (C136_safe_partial, C136_nuclide_partial for any chain of sharing, C136_elastic_partial, C136_delayed_partial). Missing: files without these conditions, for which the claim is false: an empty angular table is accepted and sampled out of range at every energy (C136_violation_empty); with law 61 the random number 0 reads before the table, for every file (C136_violation_zero); equiprobable bins are C40. A sample that meets a non-finite value ends in the model; the only sampler that uses a computed value as a search key is Kalbach's, for which C141 settles what happens after one."
 },
 "C137": {
  "status": "proved",
  "note": "C137_reaction for every reaction of every file with positive weight ratio; C137_nuclide for every reaction of every nuclide that can be constructed, through any chain of sharing (the weight ratio is then positive by construction); C137_elastic for the elastic angle. Exact arithmetic."
 },
 "C138": {
  "status": "partial",
  "note": "Proved for every file, energy and stream with the conditions the constructor does not check as hypotheses: two incoming energies, two outgoing energies per table, at least one cosine (C138_safe_partial). Missing: files without them, for which the claim is false: a table with one outgoing energy is accepted and read out of range by every sample (C138_violation_single), likewise one incoming energy of the incoherent elastic part (C66_violation_single)."
 },
 "C139": {
  "status": "proved",
  "note": "C139_coherent, C139_incoherent, C139_inelastic: no condition on the file beyond being accepted. Exact arithmetic."
 },
 "C140": {
  "status": "partial",
  "note": "The densities are modelled a second time over numbers with infinities and NaN (Model/Ieee; C140_extends: it continues the plain model). Exact characterisation for every law and argument: the access leaves the tables iff the interpolated window is one point (C140_tabular), or, for the correlated laws, also at the upper end of the window of a linearly interpolated table with a single highest energy (C140_kalbach, C140_angle); in all other cases there is a value. C140_covers: every incoming energy is covered. Missing: those cases, where the claim is false (C140_violation, C140_violation_kalbach). The domain is exact arithmetic with finite arguments: no rounding, overflow, or NaN arguments. C140_arithmetic, C140_special: the arithmetic of the special values is that of IEEE 754, stated with the extended real numbers."
 },
 "C141": {
  "status": "partial",
  "note": "Exact characterisation: the access leaves the table iff it is interpolated linearly and the second random number falls in a step of the cumulative at a repeated energy where the density rises (C141_exact); otherwise a value is returned and four numbers are consumed. C141_extends: continues the plain model. C141_safe_partial: tables without such a step are safe for every stream. Missing: tables with such a step, where the claim is false (C141_violation: a quarter of all streams). Exact arithmetic. C141_cosine: a returned cosine is NaN or in [-1, 1]; C141_limit: the limiting itself."
 },
 "C142": {
  "status": "partial",
  "note": "Proved for every constructor of every law, given that lab-frame data hold no negative energies (Spec.NonnegDist), which the constructors do not check: C142_violation is an accepted file whose level law in the lab frame returns a negative energy for every stream below its offset. C142_cm needs no condition at all."
 },
 "C143": {
  "status": "partial",
  "note": "Proved under Spec.TotalDist (two incident energies to interpolate between, tables evaluable at E, covered cumulatives, positive Kalbach slopes, non-negative energies in CM data), which the constructors do not check. C143_violation: an accepted level reaction in the CM frame, sampled below its offset, takes the square root of a negative number for every stream."
 },
 "C144": {
  "note": "C144_any_* and C144_returning: any data, one law per sampling method (of mass the probability that a call returns). The law is the one with the reported density for the data of C103-C126 (C144_angle ... C144_continuous); for other data the samples are independent but their law may differ from the reported one (e.g. C109_violation_bins)."
 },
 "C145": {
  "status": "partial",
  "note": "Proved for reactions that emit neutrons and for the elastic and thermal modes; C145_violation: asked for a capture reaction the program reports that it has no distribution, but exits with status 0 and saves an array of zeros. Argument parsing and the NPY writer are not modelled."
 },
 "C146": {
  "status": "partial",
  "note": "Proved for every history: where the contents come from (C146_contents), that cross sections, thresholds, grid, probability tables and temperature do not depend on the history provided the tables have contents in the format and agree on being fissile (C146_cross_sections), that thermal laws do not depend on it (C146_thermal), and that only its own setters change a returned nuclide (C146_settings). Not true of the code, with proved counterexamples: a setter called on the nuclide loaded first changes nuclides loaded later (C146_violation_settings); when the tables list different reactions, loading order decides between success and reading outside of a vector (C146_violation_order). By construction the distributions are those of the table loaded first (C146_contents)."
 },
 "C147": {
  "status": "partial",
  "note": "Proved for every file: joint density (C147_reaction_partial), cosine density (C147_angle_partial), both for the reactions of a nuclide (C147_nuclide_partial), angular distributions with no condition at all (C147_cosine), delayed spectra (C147_delayed_partial). Conditions on the data, all stated in Spec/ReadDensity and none checked by the code: general evaporation temperatures not negative, Maxwell temperature at most the available energy, Kalbach ratios within [-1,1], mixture weights not negative, and for the cosine density in the CM frame g at most 1. N-body, evaporation, Watt, tabular, correlated and bin laws need no condition. The full claim is false of the code: C147_violation (an accepted file with a Maxwell spectrum), C147_violation_weight; see also C64_violation_negative and C71_violation_negative."
 },
 "C148": {
  "status": "partial",
  "note": "Source of the spectrum, choice of the partial, law of the samples, cosine range, and (under the conditions of C136, C142, C147) safety, energies and densities are proved for every nuclide read from a fissile file. The full property is false of the code: with several partials open the densities are only the first one's share (C148_violation), and up to the lowest threshold the probabilities are 0/0 although the fission cross section may be positive (C148_closed, C148_violation_file)."
 },
 "C149": {
  "status": "partial",
  "note": "Proved for every reaction, nuclide and delayed spectrum read from a file when no table is concentrated in one energy and no N-body law has four bodies (Spec.WideDist); both conditions are shown to be needed: C149_violation (an accepted file with four bodies) and C149_violation_line (any law with a discrete line next to a wider table), with an accepted instance."
 },
 "C150": {
  "status": "partial",
  "note": "Proved for every rounding: no energy is negative if the value drawn from the selected table is inside that table (C150_nonneg_partial) or if the tables start at 0 (C150_from_zero, C150_tabular_energy, C150_kalbach), and then the interpolated maximum is an upper bound for values drawn inside the table. The unconditional upper bound is false: C150_violation, 2.5 from tables ending at 1.25. C150_exact and C150_exact_kalbach show that without rounding the model is the sampler of C82/C110. Densities between 0 and 2^-500 are excluded, overflow is not modelled."
 },
 "C151": {
  "status": "proved",
  "note": "No hypothesis on the data. C151_collect: the property carries over to loops of calls; C151_prefix and C151_next: its observable consequences."
 },
 "C152": {
  "status": "proved",
  "note": "No hypothesis on the data (C144 has the laws themselves, for sound data). C152_product: with the law of one call; C152_returns: the probability that all calls return."
 },
 "C153": {
  "status": "proved",
  "note": "Composes C89 (text reader), C10 (binary round trip) and C99 (nuclide from blocks) through the block accessors of the ACE object (Model/AceObj.lean). C11_violation_nuclide belongs to C11: the object keeps the divided temperature. Secondary distributions of the table: C97, C99. C153_blocks: every number the reader of a reaction consults stands in the file where the format says; C153_thermal and C153_object: the same for thermal tables and for the object itself."
 },
 "C154": {
  "status": "partial",
  "note": "Re-hashing is proved for all histories (C154_rehash). C154_has_urr_partial: has_urr and is_valid agree if there is no UNR block (and no energy beyond 50000 MeV), or one of at least three energies starting below the last grid energy. Missing because false: a block of one or two energies is announced but never used, one starting at the end of the grid is used but not announced (C154_violation_block), and a grid made from a list of energies has no value to answer with at all (C154_violation_vector: undefined behaviour)."
 },
 "C155": {
  "status": "partial",
  "note": "The three spectra, levels and isotropic cosines are proved (C155_window, C155_binary64, C155_level, C155_isotropic), and that with exact arithmetic the model is the one of the other claims (C155_exact_*). C155_nbody_partial: the N-body energy is in the range or NaN. Missing because false: a random number equal to zero makes it NaN (C155_violation_nbody). That the loops end is C42/C103, in exact arithmetic only."
 },
 "C156": {
  "status": "partial",
  "note": "Everything about the samples is proved (C156_units, C156_saved, C156_refused, C156_same, C156_thermal, C156_elastic). C156_warnings_partial: sopenmc's warning about thermal laws and spndl's about 400 kT are right. Missing because false (C156_violation_warnings): spndl compares an energy in MeV with 4 and warns in the elastic modes too; sopenmc compares an energy in eV with 400 kT in MeV. OpenMC itself is a parameter of the model; the look-up of groups in the HDF5 file is not modelled."
 },
 "C157": {
  "status": "partial",
  "note": "Proved: the cosine is NaN or in [-1, 1] whatever the machine (C157_range); with exact arithmetic it is the cosine of C141 (C157_exact); for A > 0 with finite sinh(A), exp(A), exp(-A) it is a number in [-1, 1] (C157_number_partial). The rest is false of the code: A = 0 gives NaN (C157_violation_zero), overflow of sinh(A) gives NaN for backward draws (C157_violation_overflow), overflow of the square of T sends backward draws straight ahead (C157_violation_sign), and from T <= -2^28 the sum T + sqrt(T*T+1) cancels to 0 so all draws give -1 (C157_violation_cancel, with a concrete case A = 40 in C157_violation_example)."
 },
 "C158": {
  "status": "partial",
  "note": "Proved for every program: no use of a destroyed object (C158_safe), no leak (C158_no_leak), a broadener lives exactly as long as it has an owner and never changes (C158_reference, C158_same_broadener), effect of setters, derivation, copying and assignment (C158_set, C158_set_broadener, C158_derived, C158_copied, C158_assigned). C158_independent_partial: independence of nuclides, for programs that do not copy or assign nuclides. Missing because false: the copy constructor shares the Elastic, so a setter on a copy changes the original (C158_violation_copy); the reference returned by elastic_doppler_broadener() dangles after set_elastic_doppler_broadener (C158_violation_reference)."
 },
 "C159": {
  "status": "partial",
  "note": "Complete description of what reading gives for every stop: C159_records (from byte 512 on: everything but XSS exact, XSS what arrived followed by zeros), C159_complete (a stop in the last four bytes loses nothing), C159_header (312 to 507: a table of zeros), C159_written_partial (no wrong number except zeros). Missing because false: below 312 bytes and from 508 to 511 the reader uses numbers it has not read (C159_violation_undefined); a truncated file is never refused, so every lost entry that is not zero silently becomes zero (C159_violation_silent); saving over a good file destroys it before anything is written (C159_violation_overwrite)."
 },
 "C160": {
  "status": "partial",
  "note": "Proved: items in range (C160_grid_item, C160_xs_item), negative indices refused (C160_negative), membership of grid points (C160_contains_partial), numbers returned by overriding methods (C160_override_partial). Missing because false: indices past the end are read (C160_violation_item), so iterating over any grid or asking for an absent energy is undefined (C160_violation_iterate, C160_violation_contains), iterating over a cross section never ends (C160_violation_iterate_xs); an energy law written in Python cannot return None (C160_violation_none). pybind11's conversions and CPython's sequence iteration are modelled as documented."
 },
 "C161": {
  "status": "partial",
  "note": "False of the code: sample_mu chooses one of 33 bins and does not scale by the width of the bin. C161_law_partial gives the law actually drawn (33 windows of width 32/33 placed by the bounds, moved into [-1,1]); C161_violation_iff shows that it is the reported one exactly for bins that are all 1/33 wide, and C161_violation_full that it never is for bins covering all cosines. The laws of angular distributions (C161_distribution_partial) and of elastic scattering off a target at rest of another mass than the neutron's or off a free gas (C161_elastic_rest_partial, C161_elastic_gas_partial) follow for any angular data; see also C121_violation_bins."
 },
 "C162": {
  "note": "C162_coherent holds for every way of rounding to nearest; C162_smear, C162_incoherent, C162_file and C162_incoherent_total for the default rounding (ties to even, same for both signs). Neighbouring interpolated cosines may come out in the wrong order, so that a gap is negative; mix_cross bounds by how much. A single incoming energy is C66_violation_single. Overflow of 2 * E_bragg is not modelled. C162_exact: with exact arithmetic these models are those of C65 and C66."
 },
 "C163": {
  "status": "partial",
  "note": "C163_violation: a file whose total is elastic plus absorption rounded to the nearest double is reported to scatter inelastically; C163_no_inelastic bounds by how much. Energies below the grid are C58_violation_below and C31; overflow is not modelled. C163_tables says nothing about heating of nuclides, which may be negative. C163_exact: with exact arithmetic these models are those of C57, C58 and C60."
 },
 "C164": {
  "status": "partial",
  "note": "The last sentence fails next to 1: C164_violation (probabilities 3/4, 1/16+, 1/16+, 1/8-, 0 that add up to 1 exactly; the last distribution is sampled for the random number 1 - 2^-53) and C164_violation_fission (partial cross sections 1, 4, 1, 0: fourth-chance fission is sampled although it is closed). C164_possible and C164_fission_possible: it holds for random numbers further than a rounding per component from 1. What the chosen distribution does afterwards is not rounded here; overflow is not modelled. C164_exact: with exact arithmetic these are the models of C61 and C62."
 },
 "C165": {
  "status": "partial",
  "note": "A value is not always returned: C165_undefined_iff and C165_violation (every set of n bounds and every draw of at least (n-1)/n read outside the bounds, as in C40). Below those draws: C165_in_bin_partial, C165_energy_partial, C165_evaporation_partial, with C165_monotone and C165_close. The angular claims hold in full: C165_law_range, C165_range, C165_neighbour, C165_tabulated, C165_returns (tables and Legendre laws may fail to return for the reasons of C35; the acceptance ratio of a Legendre law is an arbitrary function). Overflow is not modelled. C165_exact, C165_exact_angle: without rounding these are the models of C40 and C35."
 },
 "C166": {
  "status": "partial",
  "note": "C166_discrete (total, indices, cosine, closeness, energy not negative), C166_discrete_positive_partial; positivity is false in general: C166_violation (the energy returned at a tabulated incoming energy is 0 when the table before it has an energy 2^60 times larger). Continuous energies: C166_cosine; C166_plain_nonneg_partial (with half_weight and plainOutFl_nonneg: the computed weight, half and shift never choose a table more than twice the incoming energy away); C166_unit_nonneg_partial for tables that start at energy 0; C166_file for every accepted file. Densities that are positive but below 2^-500 and overflow are excluded. C166_exact: without rounding these are the models of C85 and C86."
 },
 "C167": {
  "note": "C167_maxwell_candidates, C167_evaporation_candidates, C167_watt_candidates; C167_maxwell, C167_evaporation, C167_watt; C167_no_return; C167_nbody, C167_nbody_max. Spec.SoundLibm states what is asked of the library's functions, and soundLibm_rounded shows the correctly rounded ones meet it. The parameters tabulated against incoming energy are given by their values there (their evaluation in double arithmetic is C128, C129). Draws are taken in the order of the text. Overflow is not modelled. C167_exact: without rounding these are the models of C42 and C43. The negative maximum for mass ratios below 1 is C43_violation's."
 },
 "C168": {
  "note": "C168_polynomial (error bound for every degree), C168_polynomial_mono, C168_polynomial_const, C168_integrate, C168_level_make, C168_level, C168_level_mono, C168_photon. Overflow is not modelled. C168_exact: without rounding these are the models of C24, C74 and C98."
 },
 "C169": {
  "status": "partial",
  "note": "C169_table_cosine and C169_cosine (every table, every rounding), C169_table_lower, C169_nonneg_partial (tables that start at energy 0, or draws inside their table). The bound by the largest energy is false of the code: C169_violation (tables from 0 to 1.25, the energy drawn is 2.5). Densities that are positive but below 2^-500 and overflow are excluded. C169_exact: without rounding these are the models of C63."
 },
 "C170": {
  "status": "partial",
  "note": "C170_bragg_partial for every quantity g at every energy but the first and last edges; C170_edge_partial and C170_transport_partial are its consequences for one edge and for the transport cross section. At the last edge the code violates it: the cross section contains the last step, the samples do not (C170_violation_last_edge, C170_violation_last_edge_witness); at the first edge see C65_violation_first_edge."
 },
 "C171": {
  "note": "C171_energy (every sound angular distribution: the mean energy from the mean of the reported density), C171_mean (isotropic, A >= 1: both means), C171_light (A <= 1: mean cosine). The means are over the law of the pairs returned, C121."
 }
}