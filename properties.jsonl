{"id": "C01", "title": "ZAID integer encoding and ordering agree", "statement": "For any two ZAIDs whose A is below 1000, ZAID::zaid() equal implies the ZAIDs are equal, operator< is a strict total order, and it agrees with < on the zaid() integers; std::hash is consistent with operator==.", "quantifier": "every pair (Z in 0..255, A in 0..999), and for == / hash every Z, A", "why_tests_cant": "2.5e5 values squared pairs; a test samples a few", "anchors": ["include/PapillonNDL/zaid.hpp: ZAID::zaid, operator==, operator<, std::hash<ZAID>"]}
{"id": "C02", "title": "Element/Isotope construction accepts exactly the documented domain", "statement": "Element(Z) succeeds iff 1<=Z<=118; Isotope(Z,A) succeeds iff 1<=Z<=118 and Z<=A<300; otherwise PNDLException; on success the accessors return the arguments.", "quantifier": "every uint8 Z and uint32 A", "why_tests_cant": "2^40 argument pairs", "anchors": ["include/PapillonNDL/element.hpp: Element", "include/PapillonNDL/isotope.hpp: Isotope"]}
{"id": "C03", "title": "Nuclide <-> ZAID round trip", "statement": "For every nuclide with A no larger than the element's largest tabulated isotope, Nuclide(n.zaid()) == n, provided that for level-2 isomers A+100 exceeds the largest isotope; the excluded nuclides really are decoded to a different nuclide or rejected.", "quantifier": "every (Z,A,level) constructible as a Nuclide", "why_tests_cant": "about 10^5 nuclides; the failing region is only visible when the decoding loop is analysed", "anchors": ["include/PapillonNDL/nuclide.hpp: Nuclide(const ZAID&), Nuclide::zaid", "src/element.cpp: elements_table"]}
{"id": "C04", "title": "Every constructible Nuclide has isomer level <= 2", "statement": "Whatever constructor is used, if construction succeeds then level() <= 2 (the documented class invariant).", "quantifier": "every constructor argument, in particular every ZAID", "why_tests_cant": "2^40 ZAIDs, and unsigned wrap-around is involved", "anchors": ["include/PapillonNDL/nuclide.hpp: Nuclide(const ZAID&)"]}
{"id": "C05", "title": "Symbol round trip for elements, isotopes and nuclides", "statement": "Element(e.symbol())==e, Element(e.name())==e, Isotope(i.symbol())==i and Nuclide(n.symbol())==n for every constructible value; surrounding white space is ignored.", "quantifier": "every constructible element, isotope, nuclide and every amount of surrounding white space", "why_tests_cant": "unbounded white space and ~10^5 nuclides", "anchors": ["include/PapillonNDL/isotope.hpp: Isotope(const std::string&)", "include/PapillonNDL/nuclide.hpp: Nuclide(const std::string&), symbol", "src/element.cpp: Element(const std::string&)"]}
{"id": "C06", "title": "RNG stream position arithmetic", "statement": "rng_advance(n) leaves the generator exactly where n calls of rng() leave it; advances compose additively; rng_seed(s) then any sequence of calls is a function of s only; rng_reset() is rng_seed of the default seed.", "quantifier": "every seed, every n, every history of rng/advance/seed/reset calls", "why_tests_cant": "unbounded histories", "anchors": ["src/rng.cpp: rng, rng_reset, rng_seed, rng_advance"]}
{"id": "C07", "title": "RNG has full period 2^63", "statement": "Starting from any seed the generator state first recurs after exactly 2^63 draws and visits every 63-bit state.", "quantifier": "every seed, every number of draws up to 2^63", "why_tests_cant": "cannot run 2^63 draws", "anchors": ["src/rng.cpp: LCG"]}
{"id": "C08", "title": "RNG output range", "statement": "rng() always lies in [0,1).", "quantifier": "every generator state", "why_tests_cant": "2^63 states", "anchors": ["src/rng.cpp: rng, unit_dist"]}
{"id": "C09", "title": "XSPacket is a vector space", "statement": "+,-,*,/ on packets act component-wise, a+b==b+a, (a+b)-b==a, (a*c)/c==a for c!=0, compound assignments agree with the binary operators, and -a is the additive inverse of a.", "quantifier": "all packets and all scalars", "why_tests_cant": "real-valued components; the sign bug in one component needs a value with fission != absorption", "anchors": ["include/PapillonNDL/xs_packet.hpp: XSPacket"]}
{"id": "C10", "title": "ACE binary save/load round trip", "statement": "For every in-memory ACE whose NXS(1) equals the XSS length and whose string fields have their fixed widths, reading the bytes written by save_binary yields the same zaid text, awr, date, comment, mat, IZAW, NXS, JXS, XSS, zaid and fissile flag.", "quantifier": "every ACE content and every XSS length (any number of 512-entry records)", "why_tests_cant": "unbounded XSS lengths, arbitrary byte patterns", "anchors": ["src/ace.cpp: save_binary, read_binary"]}
{"id": "C11", "title": "Saving an ACE does not change it", "statement": "save_binary leaves every observable of the ACE (in particular temperature()) unchanged, so saving twice writes the same bytes.", "quantifier": "every ACE and every sequence of saves", "why_tests_cant": "needs a history of operations", "anchors": ["src/ace.cpp: ACE::save_binary", "include/PapillonNDL/ace.hpp: ACE::temperature"]}
{"id": "C12", "title": "ACE zaid reconstruction", "statement": "After reading an ACE file, ace.zaid().zaid() equals NXS(2) (as unsigned), with Z = NXS(2)/1000 when that fits 8 bits and A = NXS(2) mod 1000.", "quantifier": "every NXS(2)", "why_tests_cant": "2^32 values, 8-bit truncation", "anchors": ["src/ace.cpp: read_ascii, read_binary"]}
{"id": "C13", "title": "ACE binary reader is memory safe", "statement": "read_binary never writes outside the XSS array, whatever the file contains.", "quantifier": "every byte string given as file", "why_tests_cant": "adversarial record lengths", "anchors": ["src/ace.cpp: read_binary"]}
{"id": "C14", "title": "Interpolation hits its end points", "statement": "For each interpolation rule, interpolate(x1)=y1, and interpolate(x2)=y2 for every rule except Histogram, whenever the rule's grid requirements hold.", "quantifier": "all real x1<x2, y1,y2 in the rule's domain", "why_tests_cant": "continuous domain", "anchors": ["include/PapillonNDL/interpolation.hpp: Histogram,LinLin,LinLog,LogLin,LogLog"]}
{"id": "C15", "title": "invert is the inverse of interpolate", "statement": "For LinLin, LinLog, LogLin, LogLog and valid non-degenerate data, invert(interpolate(x))=x and interpolate(invert(y))=y.", "quantifier": "all x, y and end points in the rule's domain", "why_tests_cant": "continuous domain", "anchors": ["include/PapillonNDL/interpolation.hpp: *::invert"]}
{"id": "C16", "title": "integrate equals the true integral of interpolate", "statement": "For each rule, integrate(a,b,x1,y1,x2,y2) equals the Riemann/Lebesgue integral over [a,b] of interpolate(.,x1,y1,x2,y2).", "quantifier": "all a,b and end points in the rule's domain", "why_tests_cant": "continuous domain; needs calculus", "anchors": ["include/PapillonNDL/interpolation.hpp: *::integrate"]}
{"id": "C17", "title": "Interpolated values stay between the end point values", "statement": "For x1<=x<=x2 every rule returns a value between min(y1,y2) and max(y1,y2) (positive data where the rule needs logs).", "quantifier": "all x in [x1,x2] and data", "why_tests_cant": "continuous domain", "anchors": ["include/PapillonNDL/interpolation.hpp"]}
{"id": "C18", "title": "Tabulated1D region construction is total on valid breakpoints and never forms an invalid range", "statement": "If NBT is strictly increasing, starts at >=1 and ends exactly at x.size(), construction either throws PNDLException or yields regions that cover [x.front(), x.back()] without gaps; for other NBT the constructor is not guaranteed memory safe.", "quantifier": "every NBT/INT/x/y", "why_tests_cant": "unbounded vectors", "anchors": ["src/tabulated_1d.cpp: Tabulated1D::Tabulated1D"]}
{"id": "C19", "title": "Tabulated1D evaluation brackets its argument", "statement": "For every x, evaluation reads only in-range entries, returns y.front() for x<=min_x, y.back() for x>=max_x (when the last two abscissae differ), and otherwise interpolates between consecutive points with x_i < x <= x_{i+1} of the segment's law (or returns the tabulated value at the segment's last point); in particular it never divides by x_{i+1}-x_i = 0 even with repeated x values, and is finite whenever the data meet the law's requirements.", "quantifier": "every valid table and every x", "why_tests_cant": "unbounded tables, repeated abscissae", "anchors": ["include/PapillonNDL/tabulated_1d.hpp: operator()"]}
{"id": "C20", "title": "Tabulated values are reproduced at grid points", "statement": "For a single-region table with strictly increasing x, evaluating at x_i returns y_i.", "quantifier": "every table and index", "why_tests_cant": "unbounded tables; false for Histogram", "anchors": ["include/PapillonNDL/tabulated_1d.hpp: InterpolationRange::operator()"]}
{"id": "C21", "title": "Tabulated1D integral equals the integral of the evaluated function", "statement": "For a valid table with strictly increasing x inside each region, integrate(a,b) equals the integral of operator() over [a,b] clipped to [min_x,max_x], is antisymmetric in (a,b) and additive over adjacent intervals.", "quantifier": "every table, every a,b", "why_tests_cant": "unbounded tables, continuous bounds", "anchors": ["include/PapillonNDL/tabulated_1d.hpp: integrate"]}
{"id": "C22", "title": "Integration across a discontinuity", "statement": "integrate(a,b) is finite and equals the integral of the function also when x contains repeated values inside a region.", "quantifier": "every table with repeated abscissae", "why_tests_cant": "only visible at special tables", "anchors": ["include/PapillonNDL/tabulated_1d.hpp: InterpolationRange::integrate", "include/PapillonNDL/interpolation.hpp: LinLin::integrate"]}
{"id": "C23", "title": "Copies of Tabulated1D are independent and safe", "statement": "After copying or copy-assigning a Tabulated1D (also after linearize()), evaluating the copy never reads storage owned by another, possibly destroyed, object.", "quantifier": "every sequence of construct/copy/assign/destroy/evaluate/linearize", "why_tests_cant": "lifetime histories", "anchors": ["include/PapillonNDL/tabulated_1d.hpp: regions_ (std::span)", "src/tabulated_1d.cpp: linearize"]}
{"id": "C24", "title": "Polynomial1D evaluation and integral", "statement": "operator() computes sum c_i x^i and integrate(a,b) computes its exact integral for every coefficient vector.", "quantifier": "every coefficient list and x,a,b", "why_tests_cant": "unbounded degree", "anchors": ["src/polynomial_1d.cpp"]}
{"id": "C25", "title": "Function1D combinators are linear", "statement": "Sum1D/Difference1D/Constant evaluate and integrate as the pointwise sum/difference/constant of their terms; constructing with a null term throws.", "quantifier": "every expression tree of Function1D objects", "why_tests_cant": "unbounded nesting", "anchors": ["include/PapillonNDL/sum_1d.hpp", "include/PapillonNDL/difference_1d.hpp", "include/PapillonNDL/constant.hpp"]}
{"id": "C26", "title": "linearize keeps the input points and stops only when every mid point is within tolerance", "statement": "If linearize returns, the result's grid is sorted, contains every input point with its value, every added point lies on f, and at each interval's mid point the linear interpolant is within the relative tolerance of f unless the end points are adjacent doubles.", "quantifier": "every f, table and tolerance", "why_tests_cant": "unbounded refinement", "anchors": ["src/linearize.cpp: linearize"]}
{"id": "C27", "title": "linearize terminates", "statement": "linearize terminates for every f on the finite set of doubles, whatever the tolerance.", "quantifier": "every function f, every tolerance, every input grid", "why_tests_cant": "termination cannot be tested", "anchors": ["src/linearize.cpp: linearize"]}
{"id": "C28", "title": "EnergyGrid lower index is correct", "statement": "For every E, get_lower_index(E) returns 0 for E<=min, size-1 for E>=max, and otherwise the i with grid[i] < E <= grid[i+1]; the hashed look-up returns the same index as a search of the whole grid.", "quantifier": "every sorted grid (of fewer than 2^32 energies) with positive first energy, every NBINS between 1 and 2^32-2, every E", "why_tests_cant": "unbounded grids and bin counts", "anchors": ["include/PapillonNDL/energy_grid.hpp: get_lower_index", "src/energy_grid.cpp: hash_energy_grid"]}
{"id": "C29", "title": "CrossSection construction guarantees non-negative aligned values", "statement": "A CrossSection built from a vector has every value >=0 and exactly size(grid)-index values, otherwise construction throws.", "quantifier": "every vector, grid and index", "why_tests_cant": "unbounded vectors", "anchors": ["src/cross_section.cpp: CrossSection"]}
{"id": "C30", "title": "CrossSection evaluation is in-range, non-negative and piecewise linear", "statement": "evaluate(E) is 0 below the threshold energy, the last value at or above the top of the grid, reproduces tabulated values at grid points, and elsewhere lies between the two neighbouring tabulated values; it never reads out of range.", "quantifier": "every cross section and E", "why_tests_cant": "unbounded grids", "anchors": ["include/PapillonNDL/cross_section.hpp: operator()(double)"]}
{"id": "C31", "title": "CrossSection evaluation with a looked-up index agrees with evaluation without", "statement": "evaluate(E, grid.get_lower_index(E)) == evaluate(E), and evaluate(E,i,grid[i],grid[i+1]) == evaluate(E,i).", "quantifier": "every cross section and E", "why_tests_cant": "fails only at special energies (threshold, below grid)", "anchors": ["include/PapillonNDL/cross_section.hpp: operator()(double,size_t), operator()(double,size_t,double,double)"]}
{"id": "C32", "title": "PCTable sampling stays in the table and never reads out of range", "statement": "For every xi in [0,1], sample_value(xi) is defined and lies in [min_value, max_value].", "quantifier": "every constructible table and xi", "why_tests_cant": "continuous xi, unbounded tables", "anchors": ["include/PapillonNDL/pctable.hpp: sample_value", "src/pctable.cpp"]}
{"id": "C33", "title": "PCTable sampling inverts the CDF", "statement": "If the CDF is the running integral of the PDF (under the table's interpolation), sample_value is the inverse of that CDF: the integral of pdf from min_value to sample_value(xi) equals xi.", "quantifier": "every consistent table and xi", "why_tests_cant": "continuous domain", "anchors": ["include/PapillonNDL/pctable.hpp: sample_value, histogram_interp, linear_interp"]}
{"id": "C34", "title": "PCTable pdf is non-negative and supported on the table", "statement": "pdf(v)>=0 for all v, 0 outside [min_value,max_value], and equal to the tabulated pdf at tabulated values.", "quantifier": "every table, every v", "why_tests_cant": "continuous domain", "anchors": ["include/PapillonNDL/pctable.hpp: pdf(double)"]}
{"id": "C35", "title": "Every AngleLaw samples a cosine in [-1,1]", "statement": "Isotropic, EquiprobableAngleBins, AngleTable, Legendre and AngleDistribution return mu in [-1,1] for every random stream with values in [0,1).", "quantifier": "every law, energy and random stream", "why_tests_cant": "all streams", "anchors": ["src/isotropic.cpp", "src/equiprobable_angle_bins.cpp", "src/angle_table.cpp", "src/angle_distribution.cpp", "src/legendre.cpp"]}
{"id": "C36", "title": "EquiprobableAngleBins samples the distribution it reports", "statement": "The sampled cosine lies in the bin selected by xi and the sampled law matches pdf(): every bin has probability 1/32 and is uniform inside.", "quantifier": "every bin set and xi", "why_tests_cant": "needs the distribution, not samples", "anchors": ["src/equiprobable_angle_bins.cpp: sample_mu, pdf"]}
{"id": "C37", "title": "Legendre polynomial recursion", "statement": "The evaluated Legendre polynomial of any order satisfies Bonnet's recursion, equals 1 at 1, and the Legendre pdf integrates to 1 over [-1,1] whatever the higher moments.", "quantifier": "every order, every x, every moment vector", "why_tests_cant": "unbounded order", "anchors": ["src/legendre.cpp: detail::legendre, Legendre::pdf"]}
{"id": "C38", "title": "Legendre::set_moment is all-or-nothing", "statement": "set_moment(l,a) either succeeds with a distribution non-negative on [-1,1], or throws leaving the object unchanged.", "quantifier": "every history of set_moment calls", "why_tests_cant": "histories with exceptions", "anchors": ["src/legendre.cpp: set_moment, positive"]}
{"id": "C39", "title": "AngleDistribution mixes neighbouring laws", "statement": "pdf(E,mu) is the convex combination of the two laws bracketing E (the end laws outside the grid), hence non-negative and normalised when the laws are.", "quantifier": "every grid, E, mu", "why_tests_cant": "unbounded grids", "anchors": ["src/angle_distribution.cpp: pdf, sample_angle"]}
{"id": "C40", "title": "Equiprobable energy-bin sampling is memory safe and in range", "statement": "EquiprobableEnergyBins::sample_energy and GeneralEvaporation::sample_energy read only existing bin bounds and return an energy inside the selected bin for every xi in [0,1).", "quantifier": "every bin set and xi", "why_tests_cant": "fails only for xi in the top 1/n", "anchors": ["src/equiprobable_energy_bins.cpp: sample_bins", "src/general_evaporation.cpp: sample_energy"]}
{"id": "C41", "title": "TabularEnergy scaled sampling stays in the interpolated energy window", "statement": "The outgoing energy lies in [Emin,Emax], the linear interpolation of the two bracketing tables' ranges.", "quantifier": "every table set with >=2 incoming energies, E_in, random stream", "why_tests_cant": "continuous domain", "anchors": ["src/tabular_energy.cpp: sample_energy"]}
{"id": "C42", "title": "Rejection-sampled fission/evaporation spectra respect the restriction energy", "statement": "Whenever Maxwellian, Evaporation or Watt sampling returns, 0 <= E_out <= E_in - U; pdf is 0 outside this interval.", "quantifier": "every parameter set and random stream for which the loop ends", "why_tests_cant": "all streams", "anchors": ["src/maxwellian.cpp", "src/evaporation.cpp", "src/watt.cpp"]}
{"id": "C43", "title": "N-body outgoing energy is bounded by the kinematic maximum", "statement": "NBody construction accepts exactly n in {3,4,5}, Ap>0, AWR>0 and every sampled energy lies in [0, Emax] with mu in [-1,1).", "quantifier": "every parameter set and random stream in (0,1)", "why_tests_cant": "all streams", "anchors": ["src/nbody.cpp"]}
{"id": "C44", "title": "CM and lab frame transforms are mutually inverse", "statement": "LabToCM::transform after CMToLab::transform (and conversely) is the identity for positive energies, and the transform conserves the CM momentum relation.", "quantifier": "all Ein, A, mu, Eout with positive lab energy", "why_tests_cant": "continuous domain", "anchors": ["include/PapillonNDL/frame.hpp: CMToLab::transform, LabToCM::transform"]}
{"id": "C45", "title": "CM to lab cosine stays in [-1,1]", "statement": "CMToLab::transform maps mu in [-1,1] to a cosine in [-1,1].", "quantifier": "all Ein>0,Eout>0,A>=0,mu", "why_tests_cant": "continuous domain", "anchors": ["include/PapillonNDL/frame.hpp"]}
{"id": "C46", "title": "LabToCM::angle returns admissible CM cosines", "statement": "Every CM cosine returned by LabToCM::angle lies in [-1,1] and maps back to the given lab cosine.", "quantifier": "all Ein,A,Q,mu", "why_tests_cant": "edge conditions", "anchors": ["include/PapillonNDL/frame.hpp: LabToCM::angle"]}
{"id": "C47", "title": "Vector::rotate preserves length and realises the cosine", "statement": "For a unit vector u, rotate(mu,phi) is a unit vector with u . rotate(mu,phi) = mu.", "quantifier": "all unit vectors, mu in [-1,1], phi in [0,2pi]", "why_tests_cant": "continuous domain; two branches", "anchors": ["src/vector.hpp: Vector::rotate"]}
{"id": "C48", "title": "Elastic scattering with the target at rest obeys two-body kinematics", "statement": "When the target-at-rest branch is taken, E_out = E_in (A^2+2A mu_cm+1)/(A+1)^2, hence alpha E_in <= E_out <= E_in with alpha=((A-1)/(A+1))^2, and mu_lab in [-1,1].", "quantifier": "all E_in, A, angle laws, random streams", "why_tests_cant": "continuous domain", "anchors": ["src/elastic.cpp: sample_angle_energy"]}
{"id": "C49", "title": "Elastic setters keep the object valid", "statement": "After any sequence of setter calls, including ones that throw, tar_threshold()>=0, temperature()>=0 and the broadener is non-null.", "quantifier": "every history of setter calls", "why_tests_cant": "histories with exceptions", "anchors": ["src/elastic.cpp: set_tar_threshold, set_temperature, set_elastic_doppler_broadener"]}
{"id": "C50", "title": "DBRC majorant bounds the cross section", "statement": "max_xs_value(Emin,Emax) is at least the 0 K cross section everywhere on [Emin,Emax] and is attained.", "quantifier": "every cross section starting at grid index 0 and every interval", "why_tests_cant": "continuous domain", "anchors": ["src/elastic_dbrc.cpp: max_xs_value"]}
{"id": "C51", "title": "NDLibrary nearest_temperature returns a nearest tabulated temperature", "statement": "nearest_temperature(symbol,T) returns one of temperatures(symbol) and no other is strictly closer to T.", "quantifier": "every sorted temperature list and T", "why_tests_cant": "unbounded lists", "anchors": ["src/nd_library.cpp: nearest_temperature"]}
{"id": "C52", "title": "NDLibrary loads the tabulated temperature nearest to the request", "statement": "load_STNeutron/load_STTSL throw iff no tabulated temperature is within tolerance, and otherwise return the data set nearest to the request.", "quantifier": "every temperature list, request and tolerance", "why_tests_cant": "wrong only when two temperatures are in tolerance", "anchors": ["src/nd_library.cpp: load_STNeutron, load_STTSL"]}
{"id": "C53", "title": "NDLibrary caches: each table is loaded at most once and repeat requests return the same object", "statement": "In every history of load calls each ACE table is read successfully at most once, and two requests selecting the same table return the same object; failed loads leave the cache unchanged.", "quantifier": "every history of load calls, including failing ones", "why_tests_cant": "unbounded histories", "anchors": ["src/nd_library.cpp: load_STNeutron, load_STTSL"]}
{"id": "C54", "title": "Serpent directory parse registers each table once", "statement": "Reading a well-formed Serpent directory file registers each non-alias neutron/TSL line exactly once, also when the file ends in a newline.", "quantifier": "every directory file", "why_tests_cant": "end-of-file behaviour of streams", "anchors": ["src/serpent_library.cpp: SerpentLibrary"]}
{"id": "C55", "title": "STNeutron reaction look-up", "statement": "has_reaction(mt) is true iff the MT is listed; reaction(mt) returns the reaction whose mt() is mt, and throws otherwise; look-ups never index out of range for any mt.", "quantifier": "every MT list and every uint32 mt", "why_tests_cant": "2^32 MT values", "anchors": ["include/PapillonNDL/st_neutron.hpp: has_reaction, reaction", "src/st_neutron.cpp"]}
{"id": "C56", "title": "mt_list contains exactly the file's MTs", "statement": "mt_list() is sorted and is a permutation of the ACE file's MTs, for data constructed directly and for data constructed sharing another temperature's distributions.", "quantifier": "every MT list", "why_tests_cant": "unbounded lists; second constructor only", "anchors": ["src/st_neutron.cpp: STNeutron(const ACE&), STNeutron(const ACE&, const STNeutron&)"]}
{"id": "C57", "title": "Cross-section packet balance", "statement": "STNeutron::evaluate_xs returns absorption = disappearance + fission, inelastic >= 0, and total = elastic + inelastic + absorption whenever total >= elastic + absorption.", "quantifier": "every nuclide and E", "why_tests_cant": "continuous domain", "anchors": ["include/PapillonNDL/st_neutron.hpp: evaluate_xs"]}
{"id": "C58", "title": "URR probability tables give balanced non-negative cross sections", "statement": "evaluate_xs returns a value iff the table is valid and E is within its range; then every component is >= 0 and total = elastic+inelastic+absorption and absorption >= capture + fission, and no band index is out of range for xi in [0,1].", "quantifier": "every accepted table, E, xi", "why_tests_cant": "continuous domain, unbounded tables", "anchors": ["include/PapillonNDL/urr_ptables.hpp: evaluate_xs", "src/urr_ptables.cpp"]}
{"id": "C59", "title": "Fission nu bookkeeping", "statement": "nu_total = nu_prompt + nu_delayed at every energy for every combination of provided nu blocks.", "quantifier": "every combination of provided data and E", "why_tests_cant": "combinations of optional data", "anchors": ["src/fission.cpp: Fission"]}
{"id": "C60", "title": "Summed fission cross section", "statement": "When MT 18 is absent, the fission cross section at every grid index equals the sum of the present partial fission cross sections.", "quantifier": "every set of partial cross sections and grid index", "why_tests_cant": "unbounded grids", "anchors": ["src/st_neutron.cpp: compute_fission_xs"]}
{"id": "C61", "title": "Summed fission spectrum is the cross-section-weighted mixture", "statement": "SummedFissionSpectrum::pdf/angle_pdf equal the probability-weighted sum over MT 19,20,21,38 and sampling chooses reaction k with probability proportional to its cross section.", "quantifier": "every E and xi", "why_tests_cant": "needs several partials open at once", "anchors": ["src/summed_fission_spectrum.cpp"]}
{"id": "C62", "title": "MultipleDistribution selects by cumulative probability", "statement": "sample selects distribution d iff the cumulative probability first exceeds xi at d (the last one otherwise); pdf is the probability-weighted sum and absent iff some component's is absent.", "quantifier": "every number of distributions, xi", "why_tests_cant": "unbounded number of components", "anchors": ["src/multiple_distribution.cpp"]}
{"id": "C63", "title": "Correlated tables never read out of range", "statement": "KalbachTable::pdf, EnergyAngleTable::pdf and EnergyAngleTable::sample_angle_energy are defined for every argument (xi in [0,1), any E_out).", "quantifier": "every accepted table and argument", "why_tests_cant": "only exact end points fail", "anchors": ["include/PapillonNDL/kalbach_table.hpp: pdf", "include/PapillonNDL/energy_angle_table.hpp: pdf, sample_angle_energy"]}
{"id": "C64", "title": "Kalbach angular density", "statement": "For a>0 and |r|<=1 the Kalbach-Mann angular density is non-negative and integrates to 1 over [-1,1], and the sampled cosine lies in [-1,1].", "quantifier": "all a, r, mu, xi", "why_tests_cant": "continuous domain", "anchors": ["include/PapillonNDL/kalbach_table.hpp: angle_pdf", "src/kalbach.cpp: sample_angle_energy"]}
{"id": "C65", "title": "Coherent elastic scattering", "statement": "xs(E) is 0 below the first Bragg edge and S_i/E between edges i and i+1; sampling keeps the energy and gives a cosine in [-1,1], choosing only edges below E.", "quantifier": "every edge list, E, xi", "why_tests_cant": "special energies", "anchors": ["include/PapillonNDL/st_coherent_elastic.hpp: xs, sample_angle_energy"]}
{"id": "C66", "title": "Discrete-cosine smearing stays in [-1,1]", "statement": "With sorted cosines in [-1,1], the smeared cosine of incoherent elastic scattering lies in [-1,1] without clamping and energy is conserved.", "quantifier": "every cosine table, E, random stream", "why_tests_cant": "continuous domain", "anchors": ["include/PapillonNDL/st_incoherent_elastic_ace.hpp: sample_angle_energy"]}
{"id": "C67", "title": "Incoming-energy bracketing is memory safe for every table with at least two energies", "statement": "The index/fraction computation shared by Kalbach, TabularEnergy, TabularEnergyAngle, discrete-cosine laws yields l+1 < size and f in [0,1]; with one energy it is out of range.", "quantifier": "every sorted grid and E_in", "why_tests_cant": "unbounded grids", "anchors": ["src/kalbach.cpp", "src/tabular_energy.cpp", "src/tabular_energy_angle.cpp", "src/continuous_energy_discrete_cosines.cpp", "src/discrete_cosines_energies.cpp", "include/PapillonNDL/st_incoherent_elastic_ace.hpp"]}
{"id": "C68", "title": "Exception message wrapping preserves the text", "statement": "PNDLException wrapping only replaces single spaces (or, failing that, one character) by line breaks, never reads out of range, and add_to_exception keeps all earlier messages.", "quantifier": "every message and history of add_to_exception", "why_tests_cant": "unbounded messages", "anchors": ["include/PapillonNDL/pndl_exception.hpp: add_to_error_message"]}
{"id": "C69", "title": "Spectrum densities integrate to one", "statement": "The densities returned by Maxwellian::pdf, Evaporation::pdf and Watt::pdf integrate to 1 over the allowed outgoing energies [0, E_in - U].", "quantifier": "every positive parameter set and E_in > U", "why_tests_cant": "an integral identity over a continuum of outgoing energies and parameters; a test sees finitely many points", "anchors": ["src/maxwellian.cpp:Maxwellian::pdf", "src/evaporation.cpp:Evaporation::pdf", "src/watt.cpp:Watt::pdf"]}
{"id": "C70", "title": "N-body density integrates to one", "statement": "The joint density returned by NBody::pdf integrates to 1 over cosine [-1,1] and energy [0,Emax], for 3, 4 and 5 bodies.", "quantifier": "every accepted parameter set with Emax > 0", "why_tests_cant": "integral identity for all parameters", "anchors": ["src/nbody.cpp:NBody::pdf"]}
{"id": "C71", "title": "CM to lab change of the angular density", "statement": "CMDistribution::angle_pdf(E_in, mu) is the lab angular density: the sum over the CM cosines that scatter into mu of the CM density times |dmu_cm/dmu_lab|; in particular it is non-negative and distinguishes forward from backward.", "quantifier": "every CM distribution, E_in, Q, A, mu", "why_tests_cant": "quantifies over all distributions and angles", "anchors": ["src/cm_distribution.cpp:CMDistribution::angle_pdf", "include/PapillonNDL/frame.hpp:LabToCM::angle"]}
{"id": "C72", "title": "Frame Jacobians are the derivatives of the frame maps", "statement": "CMToLab::angle_jacobian (both forms) equals dmu_cm/dmu_lab of the kinematic map, and CMToLab::jacobian equals the determinant of d(mu_cm,E_cm)/d(mu,E).", "quantifier": "all energies, masses, Q values and cosines where the map is regular", "why_tests_cant": "derivative identities at a continuum of points", "anchors": ["include/PapillonNDL/frame.hpp:CMToLab::angle_jacobian", "include/PapillonNDL/frame.hpp:CMToLab::jacobian"]}
{"id": "C73", "title": "Target velocity sampling", "statement": "The acceptance probability of the SVT sampler is in [0,1]; a sampled target has speed sqrt(x^2 kT/A); a DBRC sample has a relative energy within the window used for the majorant and was accepted against it.", "quantifier": "all energies, temperatures, masses, random streams", "why_tests_cant": "random streams of unbounded length", "anchors": ["src/elastic_svt.cpp:ElasticSVT::sample_target_velocity", "src/elastic_dbrc.cpp:ElasticDBRC::sample_target_velocity"]}
{"id": "C74", "title": "Level inelastic scattering conserves energy", "statement": "LevelInelasticScatter::sample_energy returns the CM energy for which the neutron and the recoil share A/(A+1) E_in - |Q|; it is non-negative iff E_in is at or above the threshold (A+1)|Q|/A, and construction throws iff AWR <= 0.", "quantifier": "every Q, AWR, E_in", "why_tests_cant": "quantifies over reals", "anchors": ["src/level_inelastic_scatter.cpp"]}
{"id": "C75", "title": "Sharing constructor takes distributions from the other nuclide", "statement": "For data constructed from a file and another temperature's data, reaction(mt) has the secondary distributions of the other object's reaction(mt) and the cross section of its own file; the other object has every reaction the new one has.", "quantifier": "every chain of constructions, every mt", "why_tests_cant": "chains of sharing of unbounded length, every MT list", "anchors": ["src/st_neutron.cpp: STNeutron(const ACE&, const STNeutron&)", "src/fission.cpp: Fission(const ACE&, std::shared_ptr<EnergyGrid>, const Fission&)", "src/reaction.cpp"]}
{"id": "C76", "title": "Tabulated records read back exactly", "statement": "A tabulated record (regions, laws, points) laid out according to the ACE format at any place of the XSS array is read as exactly that function, and the reader reports the place just after it.", "quantifier": "every XSS array, position and record", "why_tests_cant": "records have variable length; layouts are unbounded", "anchors": ["src/fission.cpp: read_tabular_nu", "src/reaction_base.cpp: ReactionBase", "src/delayed_family.cpp: DelayedFamily", "src/maxwellian.cpp: Maxwellian(ACE)"]}
{"id": "C77", "title": "Delayed families stay in step", "statement": "Reading the delayed-neutron block gives one family per record, in file order, each with its own decay constant in inverse seconds, its own probability function and the energy law its own locator points to.", "quantifier": "every number of families and every record length", "why_tests_cant": "the position of family k depends on all the previous variable-length records", "anchors": ["src/fission.cpp: Fission", "src/delayed_family.cpp: DelayedFamily"]}
{"id": "C78", "title": "Reaction yields", "statement": "A TYR entry below 100 in size is a constant multiplicity |TYR| whatever its sign; an entry 100+k refers to the yield record at place k of the DLW block.", "quantifier": "every TYR entry and every record", "why_tests_cant": "unbounded domain", "anchors": ["src/reaction_base.cpp: ReactionBase"]}
{"id": "C79", "title": "Chains of outgoing laws", "statement": "All the laws linked in the DLW block for a reaction are read, in chain order, each with its own number, data location and probability function; reading stops at the end of the chain.", "quantifier": "every chain of any length", "why_tests_cant": "linked structure of unbounded length", "anchors": ["src/reaction_base.cpp: load_neutron_distributions"]}
{"id": "C80", "title": "Parameters of evaporation-type laws", "statement": "The temperature (or a, b) functions, restriction energy, level coefficients and bin bounds of energy laws read from an ACE file are those the file contains.", "quantifier": "every XSS array, position and record", "why_tests_cant": "unbounded domain", "anchors": ["src/maxwellian.cpp", "src/evaporation.cpp", "src/watt.cpp", "src/general_evaporation.cpp", "src/level_inelastic_scatter.cpp"]}
{"id": "C81", "title": "Angular density is the marginal of the joint density", "statement": "For a correlated angle-energy table, angle_pdf(mu) is the integral of pdf(mu, E_out) over all outgoing energies of the table; it is non-negative and integrates to 1 over [-1,1] when the table is consistent.", "quantifier": "every accepted Kalbach table with non-zero slopes (and |R| ≤ 1 for non-negativity) and every energy-angle table with matching sizes, every cosine", "why_tests_cant": "continuous domain; tables of any size", "anchors": ["include/PapillonNDL/kalbach_table.hpp: pdf, angle_pdf", "include/PapillonNDL/energy_angle_table.hpp: pdf, angle_pdf"]}
{"id": "C82", "title": "Correlated laws stay in the interpolated window", "statement": "Kalbach and TabularEnergyAngle sampling always succeeds, returns a cosine in [-1,1] and an outgoing energy between the interpolated lower and upper ends of the two neighbouring tables; the parameters R(E), A(E) are always defined and between tabulated values.", "quantifier": "every law, incoming energy, random stream", "why_tests_cant": "continuous domain; tables of any size", "anchors": ["src/kalbach.cpp: sample_angle_energy", "src/tabular_energy_angle.cpp: sample_angle_energy", "include/PapillonNDL/kalbach_table.hpp: R, A"]}
{"id": "C83", "title": "Unit-base interpolated densities are normalised", "statement": "At every incoming energy the density pdf(E_in, E_out) of TabularEnergy integrates to 1 over the outgoing energies, and pdf(E_in, mu, E_out) of Kalbach and TabularEnergyAngle integrates to angle_pdf(E_in, mu).", "quantifier": "every law, every incoming energy and cosine", "why_tests_cant": "continuous domain; only visible between tables of different widths", "anchors": ["src/tabular_energy.cpp: pdf", "src/kalbach.cpp: pdf", "src/tabular_energy_angle.cpp: pdf"]}
{"id": "C84", "title": "Energy-angle tables sample from their own density", "statement": "EnergyAngleTable::sample_angle_energy produces only (almost surely) pairs with positive density according to pdf and angle_pdf of the same table.", "quantifier": "every table and random stream", "why_tests_cant": "measure-theoretic statement over a continuous domain", "anchors": ["include/PapillonNDL/energy_angle_table.hpp: sample_angle_energy, angle_pdf"]}
{"id": "C85", "title": "Discrete-energy thermal inelastic scattering", "statement": "DiscreteCosinesEnergies built from a file holds the records of the file in order, with positive energies and cosines in [-1,1]; sampling selects outgoing energies with probabilities 1/Noe, or 1:4:10:...:10:4:1 when skewed, and returns the interpolated cosine (in [-1,1]) and energy (positive).", "quantifier": "every accepted file, every incoming energy, every random stream", "why_tests_cant": "tables of any size, continuous domain; probabilities are measures of sets of random numbers", "anchors": ["src/discrete_cosines_energies.cpp: DiscreteCosinesEnergies, sample_angle_energy"]}
{"id": "C86", "title": "Continuous-energy thermal inelastic scattering", "statement": "ContinuousEnergyDiscreteCosines built from a file holds the file's records (cosines sorted, a zero point with isotropic cosines added in front when the cumulative starts above zero). Sampling inverts the tabulated cumulative, returns a cosine in [-1,1] and a non-negative outgoing energy; with unit-based interpolation the energy lies in the interpolated window.", "quantifier": "every accepted file, every incoming energy, every random stream", "why_tests_cant": "tables of any size, continuous domain, special points of the cumulative", "anchors": ["src/continuous_energy_discrete_cosines.cpp"]}
{"id": "C87", "title": "Thermal scattering law as a whole", "statement": "STThermalScatteringLaw is accepted or refused with PNDLException; its elastic flags follow the file and are never both set; a missing part has cross section 0 at every energy and refuses sampling; xs(E) is the sum of the parts; max_energy() is the last tabulated inelastic energy.", "quantifier": "every file, every energy", "why_tests_cant": "all combinations of header fields, continuous domain", "anchors": ["src/st_thermal_scattering_law.cpp", "include/PapillonNDL/st_thermal_scattering_law.hpp: xs, max_energy", "src/st_incoherent_inelastic.cpp"]}
{"id": "C88", "title": "Elements, isotopes and nuclides as container keys", "statement": "operator< on Element, Isotope and Nuclide is a strict total order (by atomic number, then mass number, then isomer level) whose equivalence is operator==, operator== is equality of all observable fields, and std::hash is consistent with operator==.", "quantifier": "all values (pairs and triples)", "why_tests_cant": "order laws quantify over all triples", "anchors": ["include/PapillonNDL/nuclide.hpp: operator==, operator<, std::hash<pndl::Nuclide>", "include/PapillonNDL/isotope.hpp: operator<", "include/PapillonNDL/element.hpp: operator<"]}
{"id": "C89", "title": "Text ACE files are read exactly or refused", "statement": "Reading an ACE text file whose header has the documented fixed-width layout (old header, or 2.0 header with any number of comment lines) and whose arrays are written as well-formed numbers (optional sign, digits, point, E exponent) gives every entry exactly its written value, the text fields verbatim, and the nuclide and fissile flag of NXS(2)/JXS(2). A file whose XSS array does not have NXS(1) numbers - a number missing, something that is no number, a number without its E - is refused, and no file makes the reader do anything but succeed or throw.", "quantifier": "all files of the layout: all numerals, all white space, all array lengths; all truncations and corruptions", "why_tests_cant": "infinitely many files and spellings of numbers; corruptions are silent", "anchors": ["src/ace.cpp: ACE::read_ascii, split_line", "include/PapillonNDL/ace.hpp: ACE"]}
{"id": "C90", "title": "Listed names can be looked up", "statement": "Every symbol returned by list_STNeutron() leads, through the look-ups of the library (temperatures, load_STNeutron, atomic_weight_ratio), back to the nuclide or element it was listed for, and every name returned by list_STTSL() finds that thermal scattering law.", "quantifier": "all contents of a library: all ZAIDs, all thermal scattering law names", "why_tests_cant": "all element/mass/isomer combinations and all names", "anchors": ["src/nd_library.cpp: NDLibrary::symbol_to_zaid, populate_symbol_lists, load_STTSL, temperatures"]}
{"id": "C91", "title": "MCNP directory files", "statement": "Constructing an MCNPLibrary registers, for every neutron ('c') and thermal ('t') entry of the directory - whatever the blanks between columns and whether or not the entry is continued with '+' - exactly one table with the ZAID/name, file, file type and temperature of the entry, in file order; entries of other kinds are ignored; entries that do not have 7-11 columns are refused, those that do are accepted.", "quantifier": "all directory texts", "why_tests_cant": "all texts: blanks, continuation lines, numbers of columns", "anchors": ["src/mcnp_library.cpp: MCNPLibrary::MCNPLibrary"]}
{"id": "C92", "title": "Angular distributions are read as the file describes them", "statement": "AngleDistribution(ace, locb) gives an object with the energies of the file and, at each energy, the law its locator describes - isotropic for 0, 32 equiprobable bins for a positive one, a tabulated density with its interpolation rule for a negative one - the same object, or the same rejection, as the public constructors give on those numbers. LOCB = 0 is isotropic at every energy (2 xi - 1, density 1/2); a negative LOCB and energies out of order are refused.", "quantifier": "all XSS arrays and positions holding a well-formed record of any number of energies, any mixture of laws, any lengths", "why_tests_cant": "all mixtures of laws, lengths and positions", "anchors": ["src/angle_distribution.cpp: AngleDistribution(ACE,int)", "src/equiprobable_angle_bins.cpp", "src/angle_table.cpp", "src/pctable.cpp: PCTable(ACE,size_t)"]}
{"id": "C93", "title": "Outgoing-energy laws are read as the file describes them", "statement": "The file-reading constructors of the equiprobable-bin, tabular, N-body and discrete-photon laws give the same object, or the same rejection, as the public constructors give on the numbers written in the file, including any incoming-interpolation regions in front of the table.", "quantifier": "all XSS arrays holding a well-formed record: any region counts, energies, table lengths, positions", "why_tests_cant": "all lengths and positions; offset errors show only for particular layouts", "anchors": ["src/equiprobable_energy_bins.cpp", "src/tabular_energy.cpp", "src/nbody.cpp", "include/PapillonNDL/discrete_photon.hpp"]}
{"id": "C94", "title": "Correlated laws are read as the file describes them", "statement": "The file-reading constructors of the Kalbach and tabular energy-angle laws give the object the public constructors give on the tables of the file: energies, densities, cumulatives, the R and A columns, or the angular table of every outgoing energy (isotropic when its locator is 0); incident energies out of order are refused.", "quantifier": "all XSS arrays holding a well-formed record of any lengths and positions", "why_tests_cant": "all lengths, positions and mixtures of angular tables", "anchors": ["src/kalbach.cpp: Kalbach(ACE,size_t)", "src/kalbach_table.cpp", "src/tabular_energy_angle.cpp: TabularEnergyAngle(ACE,size_t,size_t)", "src/energy_angle_table.cpp"]}
{"id": "C95", "title": "Equiprobable-bin energy densities are densities", "statement": "For equiprobable energy bins and general evaporation, pdf(E_in, .) is defined for every outgoing energy, never negative and has integral one.", "quantifier": "all accepted bin tables, all incident energies (for evaporation: positive temperature)", "why_tests_cant": "an integral over a continuum, for every table and incident energy", "anchors": ["src/equiprobable_energy_bins.cpp: pdf", "src/general_evaporation.cpp: pdf"]}
{"id": "C96", "title": "Uncorrelated laws are products", "statement": "An Uncorrelated law refuses a null energy law; sample_angle_energy takes the cosine from the angular law and the energy from the energy law, using disjoint consecutive stretches of the random stream; pdf is the product of the two densities and absent exactly when the energy law has none; angle_pdf is the marginal of pdf, and pdf is a probability density when both factors are.", "quantifier": "all angular laws, energy laws, incident energies, random streams", "why_tests_cant": "all pairs of laws and all streams; integrals", "anchors": ["include/PapillonNDL/uncorrelated.hpp: Uncorrelated", "src/uncorrelated.cpp"]}
{"id": "C97", "title": "A reaction is assembled as the file describes it", "statement": "ReactionBase(ace, indx) has the MT, Q, weight ratio and yield of the file; its neutron distribution is the single law of the file's chain, or the mixture of all its laws in order with their probabilities, each being the class its law number stands for; it is wrapped in the centre-of-mass frame exactly when TYR is negative; TYR = 0 gives an absorption (zero yield, sampling throws). Unknown law numbers, and energy-only laws without an angular distribution, are refused. Below the threshold sampling gives (0, 0) without drawing.", "quantifier": "all XSS arrays holding a well-formed reaction: any chain length, any laws, any region counts", "why_tests_cant": "all chains of laws and positions", "anchors": ["src/reaction_base.cpp: ReactionBase, load_neutron_distributions", "include/PapillonNDL/reaction_base.hpp: ReactionBase", "include/PapillonNDL/absorption.hpp", "include/PapillonNDL/cm_distribution.hpp: CMDistribution"]}
{"id": "C98", "title": "Discrete photons", "statement": "A DiscretePhoton is accepted exactly for primary indicator 0, 1 or 2, positive energy and positive weight ratio; sampling draws nothing and gives the line's energy, plus A/(A+1) times the incident energy for a primary photon; the result is positive and no density is offered.", "quantifier": "all arguments and incident energies", "why_tests_cant": "all real arguments", "anchors": ["include/PapillonNDL/discrete_photon.hpp: DiscretePhoton", "include/PapillonNDL/discrete_photon.hpp"]}
{"id": "C99", "title": "A nuclide is what its file says", "statement": "STNeutron(ace): energy grid and total, disappearance, elastic, heating (and photon production) cross sections are the file's columns; has_reaction is true exactly for the MTs the file provides and reaction(mt) then has the Q value, yield, distribution, cross section and threshold of that entry, and throws otherwise; mt_list is sorted and lists exactly those MTs; elastic scattering uses the file's first angular distribution, weight ratio and temperature; nu, delayed families, prompt spectrum and probability tables are those of the file's blocks.", "quantifier": "all ACE objects (any XSS array, any number of energies and reactions) with the contents described by the specification", "why_tests_cant": "all files, sizes and block positions", "anchors": ["src/st_neutron.cpp: STNeutron::STNeutron(const ACE&)", "src/fission.cpp: Fission::Fission(const ACE&, ...)", "src/reaction.cpp: Reaction<CrossSection>", "src/cross_section.cpp: CrossSection", "src/energy_grid.cpp: EnergyGrid"]}
{"id": "C100", "title": "A nuclide sharing distributions takes exactly the distributions from the other one", "statement": "STNeutron(ace, nuclide): every reaction has the MT, Q value, yield and distribution objects of the same MT in the other nuclide and the cross section and threshold of its own file; weight ratio, fissile flag, nu, families and all settings of elastic scattering are the other's, the temperature is the file's.", "quantifier": "all files and all nuclides constructed before, through any chain of sharing", "why_tests_cant": "all pairs of files and all chains", "anchors": ["src/st_neutron.cpp: STNeutron::STNeutron(const ACE&, const STNeutron&)", "src/fission.cpp: Fission::Fission(const ACE&, ..., const Fission&)", "src/reaction.cpp: Reaction<CrossSection>"]}
{"id": "C101", "title": "A nuclide read from a file can be evaluated at every energy", "statement": "Every nuclide read from a file has positive, ordered energies; with distinct energies evaluate_xs(E) returns for every E from the first energy on, with the nuclide's cross sections at the bracketing index, absorption = disappearance + fission, capture that of MT 102 or zero, no negative entry, and the packet balanced whenever total >= elastic + absorption.", "quantifier": "all files, all nuclides built from them directly or by sharing, all energies", "why_tests_cant": "all files and energies", "anchors": ["include/PapillonNDL/st_neutron.hpp: evaluate_xs", "include/PapillonNDL/energy_grid.hpp: get_lower_index", "src/st_neutron.cpp: STNeutron"]}
{"id": "C102", "title": "Which neutron files are accepted", "statement": "A neutron file is accepted if and only if its columns have one value per energy (non-negative but for heating), its energies are ordered and positive, every reaction looked at has MT below 892, a readable distribution and a cross section reaching from its first index to the end of the grid, a fissile nuclide has MT 18 or all of 19, 20, 21 and 38, nu, families and probability tables can be read, the weight ratio is positive and the temperature not negative. Sharing needs the same of the cross sections and that the other nuclide has every reaction looked at.", "quantifier": "all files with the contents described by the specification", "why_tests_cant": "all files", "anchors": ["src/st_neutron.cpp: STNeutron, compute_fission_xs", "src/fission.cpp: Fission", "src/summed_fission_spectrum.cpp: SummedFissionSpectrum"]}
{"id": "C103", "title": "Spectrum laws sample from the density they report", "statement": "With independent random numbers uniform on [0,1], Evaporation, Watt and Maxwellian sample_energy return with probability one, and the returned energies are distributed with the density that pdf(E_in, .) reports on [0, E_in - U].", "quantifier": "all tables with a positive value at the incident energy, all incident energies above the restriction energy, all measurable sets of outgoing energies", "why_tests_cant": "a law is a statement about infinitely many infinite streams of random numbers; tests compare finite histograms", "anchors": ["src/evaporation.cpp: sample_energy, pdf", "src/watt.cpp: sample_energy, pdf", "src/maxwellian.cpp: sample_energy, pdf"]}
{"id": "C104", "title": "The N-body law samples from the joint density it reports", "statement": "With independent random numbers uniform on [0,1], NBody::sample_angle_energy returns with probability one, and cosine and energy are jointly distributed with the density NBody::pdf reports on [-1,1] x [0, E_max].", "quantifier": "all numbers of bodies the constructor accepts, all mass ratios and Q values, all incident energies with positive maximum outgoing energy, all measurable sets of pairs", "why_tests_cant": "a law over infinitely many streams of random numbers", "anchors": ["src/nbody.cpp: sample_angle_energy, pdf", "src/nbody.cpp: maxwellian_spectrum"]}
{"id": "C105", "title": "Legendre::sample_mu draws from the density it reports", "statement": "With independent random numbers uniform on [0,1], the cosines returned by Legendre::sample_mu are distributed with the density Legendre::pdf reports on [-1,1], for every object the constructors and set_moment accept.", "quantifier": "all moments, all histories of set_moment calls, all measurable sets of cosines", "why_tests_cant": "a law over infinitely many streams of random numbers; all coefficient vectors and histories", "anchors": ["src/legendre.cpp: sample_mu, pdf, find_max, positive, set_moment"]}
{"id": "C106", "title": "Unresolved resonance tables are read from the right places of the file", "statement": "If the XSS array holds at JXS(22) a block of probability tables in the ACE format (sizes, interpolation law, flags, energies, then for every energy the cumulative probabilities and the total, elastic, fission, capture and heating columns), the URRPTables constructor accepts it if and only if every table is sensible (cumulative probabilities sorted, positive, ending at one to 1e-15; cross sections not negative), the law is lin-lin or log-log and the competing reactions asked for exist; the object then holds exactly these numbers, and otherwise PNDLException is thrown.", "quantifier": "all blocks of any number of energies and bands, wherever they stand in the file, all reaction lists", "why_tests_cant": "all table sizes and contents", "anchors": ["src/urr_ptables.cpp: URRPTables::URRPTables"]}
{"id": "C107", "title": "A Serpent library lists the tables its directory file describes", "statement": "After SerpentLibrary(fname), for every nuclide (charge, mass number, isomeric state) and every thermal scattering law, the tables listed are those of the non-alias lines about it, in order, each with the path, format (ASCII or binary) and temperature of its line, and the atomic weight ratio is that of a line about the nuclide.", "quantifier": "all directory files, all nuclides and laws", "why_tests_cant": "all files with any number of lines and words", "anchors": ["src/serpent_library.cpp: SerpentLibrary::SerpentLibrary", "include/PapillonNDL/nuclide.hpp: Nuclide::zaid"]}
{"id": "C108", "title": "Tabulated distributions are sampled from the density they report", "statement": "With uniform random numbers, the values PCTable::sample_value returns have, on [min_value, max_value], exactly the density PCTable::pdf reports, for histogram and linear tables alike.", "quantifier": "all tables whose cumulative values are those of their density, all measurable sets of values, any position in the random stream", "why_tests_cant": "equality of probability measures over all events and tables", "anchors": ["include/PapillonNDL/pctable.hpp: PCTable::sample_value, PCTable::pdf", "src/pctable.cpp: PCTable::PCTable"]}
{"id": "C109", "title": "Angular distributions are sampled from the density they report", "statement": "At every incident energy (at a grid point, between two, below and above the grid), the cosines AngleDistribution::sample_angle returns have, on [-1, 1], exactly the density AngleDistribution::pdf reports.", "quantifier": "all energies, all grids, all lists of isotropic, tabulated and Legendre laws that are themselves sound", "why_tests_cant": "equality of probability measures over all events, energies and distributions, including the unbounded rejection loop of Legendre laws", "anchors": ["include/PapillonNDL/angle_distribution.hpp: AngleDistribution::sample_angle, AngleDistribution::pdf", "include/PapillonNDL/isotropic.hpp", "include/PapillonNDL/angle_table.hpp", "src/legendre.cpp", "src/equiprobable_angle_bins.cpp"]}
{"id": "C110", "title": "Tabulated outgoing energies follow the density reported", "statement": "At every incident energy the energies TabularEnergy::sample_energy returns lie in the interpolated window and have there the density TabularEnergy::pdf reports.", "quantifier": "all grids of incoming energies, all tables, all incident energies, all measurable sets of energies", "why_tests_cant": "equality of probability measures over all events, tables and energies", "anchors": ["src/tabular_energy.cpp: TabularEnergy::sample_energy, TabularEnergy::pdf"]}
{"id": "C111", "title": "Uncorrelated distributions are sampled from the joint density they report", "statement": "At every incident energy the pairs (cosine, energy) that Uncorrelated::sample_angle_energy returns have, on all cosines and the energies of the law, exactly the joint density Uncorrelated::pdf reports; cosine and energy are independent.", "quantifier": "all angular distributions, all energy laws (evaporation, Watt, Maxwellian, tabulated), all incident energies, all measurable sets of pairs", "why_tests_cant": "equality of probability measures on the plane over all events, laws and energies, with unbounded rejection loops", "anchors": ["include/PapillonNDL/uncorrelated.hpp: Uncorrelated::sample_angle_energy, Uncorrelated::pdf"]}
{"id": "C112", "title": "Mixtures are sampled from the joint density they report", "statement": "If every component draws from the joint density it reports, then so does the mixture: MultipleDistribution::sample_angle_energy returns pairs with the density MultipleDistribution::pdf reports, reactions with several laws do the same from their threshold on, and SummedFissionSpectrum draws from (and reports) the mean of the partial distributions weighted with the partial cross sections.", "quantifier": "all lists of components and weights, all incident energies, all measurable sets of pairs", "why_tests_cant": "equality of probability measures over all events and any number of components", "anchors": ["src/multiple_distribution.cpp: MultipleDistribution::sample_angle_energy, MultipleDistribution::pdf", "src/summed_fission_spectrum.cpp: SummedFissionSpectrum::sample_angle_energy, SummedFissionSpectrum::pdf", "include/PapillonNDL/reaction_base.hpp: ReactionBase::sample_neutron_angle_energy"]}
{"id": "C113", "title": "Kalbach distributions are sampled from the joint density they report", "statement": "At every incident energy the pairs (cosine, energy) that Kalbach::sample_angle_energy returns have a known law: the energy has the density of the two tables next to the incident energy carried to the interpolated window, and given the energy the cosine has the Kalbach-Mann density with the parameters R and A at that energy; and that is the joint density Kalbach::pdf reports.", "quantifier": "all Kalbach distributions with consistent tables, all incident energies, all measurable sets of pairs", "why_tests_cant": "equality of probability measures on the plane over all events, tables and incident energies", "anchors": ["src/kalbach.cpp: Kalbach::sample_angle_energy, Kalbach::pdf", "include/PapillonNDL/kalbach_table.hpp: KalbachTable::sample_energy, KalbachTable::pdf, KalbachTable::R, KalbachTable::A"]}
{"id": "C114", "title": "Tabulated energy-angle distributions are sampled from the joint density they report", "statement": "At every incident energy the pairs (cosine, energy) that TabularEnergyAngle::sample_angle_energy returns have a known law: the energy has the density of the two tables next to the incident energy carried to the interpolated window, and given the energy the cosine has the density of one angular table of that energy's cell; and that is the joint density TabularEnergyAngle::pdf reports.", "quantifier": "all tabulated energy-angle distributions with consistent tables, all incident energies, all measurable sets of pairs", "why_tests_cant": "equality of probability measures on the plane over all events, tables and incident energies", "anchors": ["src/tabular_energy_angle.cpp: TabularEnergyAngle::sample_angle_energy, TabularEnergyAngle::pdf", "include/PapillonNDL/energy_angle_table.hpp: EnergyAngleTable::sample_angle_energy, EnergyAngleTable::pdf"]}
{"id": "C115", "title": "Probability-table cross sections are the interpolated bands and average to the interpolated mean", "statement": "For an incident energy inside the unresolved range, evaluate_xs(E, i, xi) returns for elastic, capture, fission and heating the interpolation (linear or log-log, as the table says) between the bands that xi selects in the two neighbouring tables, multiplied by the smooth cross section when the tables hold factors and never below zero; inelastic and other absorption are exactly the competing cross sections, and absorption and total are the sums. At a tabulated energy the bands of that table are returned. With linear interpolation the average over xi uniform in (0,1) is the interpolation of the two tables' probability-weighted means.", "quantifier": "every valid set of probability tables, energy in range, grid index and random number in [0,1]", "why_tests_cant": "the value depends on the pair of bands selected in two tables and on the interpolation law and factor flag, and the mean is an integral over all random numbers", "anchors": ["include/PapillonNDL/urr_ptables.hpp: URRPTables::evaluate_xs"]}
{"id": "C116", "title": "A thermal scattering file is read as its format says", "statement": "For a thermal ACE file laid out as the format says (inelastic cross section, discrete or tabulated outgoing energies with their cosines, coherent, incoherent or no elastic part), STThermalScatteringLaw(ace) is constructed exactly when the contents are sensible (ordered non-negative energies, ordered cumulatives, cosines in [-1,1], positive discrete energies, at least six of them if skewed, non-negative densities and cross sections), and it then holds exactly those contents, with cosines put in order and an isotropic point at zero added to tables whose cumulative starts above zero.", "quantifier": "every file in the format, of every size", "why_tests_cant": "every count, locator and combination of blocks in the file must be handled; sample files exercise one layout each", "anchors": ["src/st_thermal_scattering_law.cpp: STThermalScatteringLaw", "src/st_incoherent_inelastic.cpp: STIncoherentInelastic", "src/discrete_cosines_energies.cpp: DiscreteCosinesEnergies", "src/continuous_energy_discrete_cosines.cpp: ContinuousEnergyDiscreteCosines", "src/st_coherent_elastic.cpp: STCoherentElastic", "src/st_incoherent_elastic_ace.cpp: STIncoherentElasticACE"]}
{"id": "C117", "title": "Sampling in the centre of mass keeps the density in the laboratory", "statement": "If a centre-of-mass distribution draws cosines and energies with the joint density its pdf reports, for non-negative energies in [a,b], then CMDistribution wrapped around it draws laboratory cosines and energies with the joint density that CMDistribution::pdf reports, on exactly the region of laboratory cosines in [-1,1] and positive energies whose centre-of-mass energy is in [a,b].", "quantifier": "every faithful centre-of-mass distribution, every target mass above -1, every incoming energy, every random stream", "why_tests_cant": "the equality of the sampled law and the reported density is over every measurable set of cosines and energies", "anchors": ["src/cm_distribution.cpp: CMDistribution::sample_angle_energy, CMDistribution::pdf", "include/PapillonNDL/frame.hpp: CMToLab::transform, LabToCM::transform, CMToLab::jacobian"]}
{"id": "C118", "title": "A reaction draws from the density it reports, whatever its laws and frame", "statement": "At energies from its threshold on, sample_neutron_angle_energy of a reaction returns cosines and energies with the joint density that its distribution reports, for one law or several with probabilities, uncorrelated, N-body, Kalbach-Mann or tabulated energy-angle, given in the laboratory or in the centre of mass; below the threshold it returns (0,0) and draws nothing.", "quantifier": "every reaction, incoming energy and random stream", "why_tests_cant": "a statement about the probability of every measurable set, for every combination of laws", "anchors": ["include/PapillonNDL/reaction_base.hpp: ReactionBase::sample_neutron_angle_energy", "src/multiple_distribution.cpp: MultipleDistribution", "src/cm_distribution.cpp: CMDistribution", "src/kalbach.cpp: Kalbach", "src/tabular_energy_angle.cpp: TabularEnergyAngle"]}
{"id": "C119", "title": "The sampled-velocity-of-target method draws the free-gas distribution of target velocities", "statement": "ElasticSVT::sample_target_velocity returns target velocities (in units where the squared speed is an energy) whose density is proportional to exp(-awr v²/kT) times the speed relative to the neutron: the Maxwellian of the free gas weighted by the relative speed. This is a probability law: the call returns with probability one.", "quantifier": "every incoming energy at least 0, positive temperature and mass ratio, and every measurable set of velocities", "why_tests_cant": "an equality of probability laws on all measurable sets of velocities, for every energy, temperature and mass", "anchors": ["src/elastic_svt.cpp: ElasticSVT::sample_target_velocity", "include/PapillonNDL/elastic_svt.hpp: ElasticSVT"]}
{"id": "C120", "title": "The Doppler broadening rejection correction draws the free gas weighted by the cross section", "statement": "ElasticDBRC::sample_target_velocity returns target velocities whose density is proportional to the free-gas density times the 0 K cross section at the energy of the relative motion, restricted to relative energies in the window [(max(0,y-4))² kT/awr, (y+4)² kT/awr] with y² = awr E/kT; where the cross section vanishes over the window it never returns.", "quantifier": "every cross section, incoming energy, positive temperature and mass ratio, and every measurable set of velocities", "why_tests_cant": "an equality of probability laws on all measurable sets of velocities, for every cross section, energy and temperature", "anchors": ["src/elastic_dbrc.cpp: ElasticDBRC::sample_target_velocity, ElasticDBRC::max_xs_value", "include/PapillonNDL/cross_section.hpp: CrossSection::operator()"]}
{"id": "C121", "title": "Elastic scattering off a target at rest returns what two-body kinematics makes of the reported angular distribution", "statement": "When the target-at-rest approximation applies, the energies returned by Elastic::sample_angle_energy have on [((A-1)/(A+1))² E, E] the density p(m(e)) (A+1)²/(2AE), where p is the centre-of-mass angular density reported by the angular distribution and m(e) the cosine that leads to energy e; the cosine and energy returned are jointly the images of one cosine with density p. With an isotropic angular distribution the energy is uniform on that interval.", "quantifier": "every angular distribution, mass ratio, temperature, threshold, incoming energy at or above the threshold, and every measurable set of outcomes", "why_tests_cant": "an equality of probability laws on all measurable sets, for every angular distribution, mass and energy", "anchors": ["src/elastic.cpp: Elastic::sample_angle_energy", "src/angle_distribution.cpp: AngleDistribution::sample_angle, pdf"]}
{"id": "C122", "title": "Elastic scattering off a moving target returns what two-body kinematics makes of the target velocity and the reported angular distribution", "statement": "When the target is not taken at rest, the cosine and energy returned by Elastic::sample_angle_energy are those of the velocity W + |V| d, where the target velocity has the law drawn by the Doppler broadener (free gas for ElasticSVT, free gas weighted by the cross section for ElasticDBRC), W is the velocity of the centre of mass of neutron and target, V that of the neutron relative to it, and d makes with V the centre-of-mass cosine drawn from the reported angular density and a uniform azimuth, the three being independent; with probability one the call returns.", "quantifier": "every angular distribution, mass ratio, positive temperature, incoming energy below the threshold (or with the approximation switched off) and every measurable set of outcomes", "why_tests_cant": "an equality of probability laws on all measurable sets, for every angular distribution, mass, temperature and energy", "anchors": ["src/elastic.cpp: Elastic::sample_angle_energy", "src/elastic_svt.cpp: ElasticSVT::sample_target_velocity", "src/elastic_dbrc.cpp: ElasticDBRC::sample_target_velocity", "src/vector.hpp: Vector::rotate"]}
{"id": "C123", "title": "Elastic scattering off the free gas obeys detailed balance", "statement": "With isotropic scattering in the centre of mass and the free-gas model, neutrons in thermal equilibrium with the target (density exp(-E/kT) sqrt(E)) are scattered from energies in S to energies in T exactly as often as from T to S; in particular the Maxwellian is stationary under Elastic::sample_angle_energy with ElasticSVT.", "quantifier": "every mass ratio and positive temperature, all measurable sets S and T of positive energies, every position in the random stream", "why_tests_cant": "an equality between integrals over all energies of transition probabilities, for all pairs of measurable sets; a simulation only estimates it", "anchors": ["src/elastic.cpp: Elastic::sample_angle_energy", "src/elastic_svt.cpp: ElasticSVT::sample_target_velocity", "src/vector.hpp: Vector::rotate"]}
{"id": "C124", "title": "Atomic weight ratios, data path and directory of an MCNP library", "statement": "Opening an MCNP directory file gives every atomic weight ratio listed under its heading (the last one listed for a nuclide counts, a nuclide not listed is refused), and registers every table listed after the word 'directory' with its file below the data path of the file (or at its absolute name); a file without ratios or without a directory is refused.", "quantifier": "every file: any number of ratios and tables, any white space, letters of either case, with or without a data path", "why_tests_cant": "the parts are found by searching the whole text and read by loops over its length; tests hold a few well-behaved files", "anchors": ["src/mcnp_library.cpp: MCNPLibrary", "src/nd_library.cpp: atomic_weight_ratio"]}
{"id": "C125", "title": "Laws of the discrete thermal samplers", "statement": "Coherent elastic scattering gives the cosine 1-2E_m/E of every Bragg edge below the energy with probability (S_m-S_(m-1))/S_l and keeps the energy; incoherent elastic scattering gives every discrete cosine interpolated at the energy with the same probability, smeared uniformly up to half the distance to its nearer neighbour, so that the mean cosine is the average of the tabulated ones; incoherent inelastic scattering with discrete energies gives every pair of tabulated (energy, cosine), interpolated, with the product of the weight of the energy (equal or 1:4:10:...:10:4:1) and 1/Nmu.", "quantifier": "every table (any number of edges, energies, cosines), every incoming energy, every event, the random numbers being independent and uniform", "why_tests_cant": "a law is a statement about all events and a continuum of random numbers; sampling tests see finitely many draws and accept wrong weights within noise", "anchors": ["st_coherent_elastic.hpp: sample_angle_energy", "st_incoherent_elastic_ace.hpp: sample_angle_energy", "src/discrete_cosines_energies.cpp: sample_angle_energy"]}
{"id": "C126", "title": "Law of thermal inelastic scattering with continuous energies", "statement": "Incoherent inelastic scattering with continuous outgoing energies draws the outgoing energy from the (piecewise linear, normalised) density of the table of the nearer incoming energy, or of one of the two neighbouring incoming energies chosen in proportion to the distance with unit-based interpolation; every discrete cosine that belongs to that energy, interpolated in the cumulative probability between the two neighbouring entries, has the same probability and is smeared uniformly up to half the distance to its nearer neighbour; and the energy returned is the drawn one shifted by the change of incoming energy, respectively placed in the interpolated window.", "quantifier": "every data set with at least two incoming energies and any number of tabulated outgoing energies and cosines, every incoming energy, every event of (cosine, energy) pairs, the random numbers being independent and uniform", "why_tests_cant": "a joint law is a statement about all events and a continuum of random numbers; sampling tests see finitely many draws, and a cosine wrongly correlated with the energy leaves both marginals unchanged", "anchors": ["src/continuous_energy_discrete_cosines.cpp: sample_angle_energy, sample_with_unit_based_interpolation, sample_without_unit_based_interpolation", "src/continuous_energy_discrete_cosines.cpp: CEDCTable::sample_energy"]}
{"id": "C127", "title": "Law of equiprobable outgoing energies", "statement": "Sampling an outgoing energy from equiprobable bins, or from general evaporation, draws from the density the distribution reports for the same incident energy: for every event the probability that the sampled energy lies in it is the integral of the reported density over it.", "quantifier": "every distribution of equiprobable bins with strictly increasing bounds and as many bounds in every table, every general evaporation law with a positive temperature, every incident energy, every measurable set of energies, the random numbers being independent and uniform, either order of evaluation of the two draws", "why_tests_cant": "a law is a statement about all events and a continuum of random numbers; a sampling test compares finitely many frequencies and must treat the calls that read past the bounds as samples", "anchors": ["src/equiprobable_energy_bins.cpp: sample_energy, sample_bins, pdf, pdf_bins", "src/general_evaporation.cpp: sample_energy, sample_bins, pdf"]}
{"id": "C128", "title": "Rounding in interpolated cross sections", "statement": "In binary64 arithmetic a cross section evaluated at any energy is a finite number, is never negative, exceeds no bound by more than two roundings of a tabulated value, differs from the exact linear interpolant by at most 2^-50 of a tabulated value plus the smallest positive number, and between two neighbouring energies moves in one direction with the energy.", "quantifier": "every round-to-nearest rule (any rule for ties), every cross section whose energies and values are nonnegative binary64 numbers, every binary64 energy, no overflow", "why_tests_cant": "there are 2^64 energies per interval and the worst rounding errors sit at isolated ones; a test against an independent evaluation uses a tolerance guessed from the sample", "anchors": ["include/PapillonNDL/cross_section.hpp: operator()", "include/PapillonNDL/interpolation.hpp: LinLin::interpolate"]}
{"id": "C129", "title": "Rounding in drawn indices", "statement": "An index drawn as the integer part of n times a random number in [0,1) is, in binary64 arithmetic, always below n, so the table entry it selects exists; it is the index exact arithmetic gives or, within a rounding of the next integer, the next one; the skewed draw of discrete outgoing energies stays inside the table too.", "quantifier": "every round-to-nearest rule, every table length n >= 1 (n <= 2^53 for closeness), every binary64 random number in [0,1)", "why_tests_cant": "the only dangerous random numbers are the few just below 1, which a test meets with probability 2^-53 per draw, and the product with n rounds differently for every n", "anchors": ["include/PapillonNDL/st_incoherent_elastic_ace.hpp: sample_angle_energy", "src/discrete_cosines_energies.cpp: sample_angle_energy", "src/continuous_energy_discrete_cosines.cpp: sample_angle_energy", "src/equiprobable_angle_bins.cpp: sample_mu"]}
{"id": "C130", "title": "Rounding in the hashed energy look-up", "statement": "In binary64 arithmetic, with a mathematical library accurate to delta, the index returned by the look-up in a hashed energy grid brackets the energy: the lower index of an energy inside the grid has its grid energies on either side of it.", "quantifier": "every round-to-nearest rule, every logarithm and exponential accurate to delta, every strictly increasing grid of positive binary64 energies, every number of bins, every binary64 energy", "why_tests_cant": "the bin is computed twice in different ways, by repeated multiplication when the table is built and by a logarithm when it is read; they disagree only at a few energies next to a bin boundary or to the top of the grid", "anchors": ["src/energy_grid.cpp: hash_energy_grid", "include/PapillonNDL/energy_grid.hpp: get_lower_index"]}
{"id": "C131", "title": "Rounding in elastic scattering", "statement": "In binary64 arithmetic elastic scattering returns a cosine in [-1,1] and an energy that is not negative.", "quantifier": "every round-to-nearest rule, every incident energy, target velocity, cosine in the centre of mass and random number, whatever the cosine and sine of the mathematical library return", "why_tests_cant": "exact two-body kinematics keeps the cosine in range, but each collision goes through some forty roundings; only the order of the operations guarantees the bound, and a test sees a vanishing share of the inputs", "anchors": ["src/elastic.cpp: sample_angle_energy", "src/vector.hpp: Vector"]}
{"id": "C132", "title": "Rounding in the change of frame", "statement": "In binary64 arithmetic the change from the centre of mass to the laboratory returns a positive energy and a cosine in [-1,1], both close to what exact arithmetic gives.", "quantifier": "every round-to-nearest rule, every incident energy, atomic weight ratio, cosine and outgoing energy in the centre of mass", "why_tests_cant": "the exact formulas satisfy the bounds with equality for emission straight ahead and cancel for emission straight back, so rounding decides, at isolated inputs", "anchors": ["include/PapillonNDL/frame.hpp: CMToLab::transform", "src/cm_distribution.cpp: sample_angle_energy"]}
{"id": "C133", "title": "Rounding in the sampling of tabulated densities", "statement": "In binary64 arithmetic sampling a tabulated density returns, for every random number, a value inside the cell the random number selects, close to the exact inverse of the cumulative.", "quantifier": "every round-to-nearest rule, every table of binary64 numbers the constructor accepts, every binary64 random number in [0,1]", "why_tests_cant": "the formula of linear cells divides a difference of nearly equal numbers by their slope; how much is lost depends on the last bits of the tabulated densities, and any table on which a test happens to agree says nothing about the next", "anchors": ["include/PapillonNDL/pctable.hpp: sample_value, histogram_interp, linear_interp"]}
{"id": "C134", "title": "The process-wide generator under threads", "statement": "When several threads call rng(), every call gets its own number of the generator's sequence: no number is handed out twice and the generator never goes back.", "quantifier": "every number of threads, every interleaving of the reads and writes of the generator's state, every state the generator starts from", "why_tests_cant": "the schedules in which a thread is delayed between reading the state and storing the next one are rare and not reproducible", "anchors": ["src/rng.cpp: rng, lcg", "include/PapillonNDL/rng.hpp: rng"]}
{"id": "C135", "title": "One library shared by threads", "statement": "When several threads load from one library, each gets data of the table its request selects, each table is read at most once and all threads that ask for it share one object.", "quantifier": "every library, every number of threads, every interleaving of the steps of their loads, every sequence of requests", "why_tests_cant": "whether two threads both find an entry empty depends on the scheduler", "anchors": ["src/nd_library.cpp: load_STNeutron, load_STTSL"]}
{"id": "C136", "title": "A reaction read from a file can be sampled without out-of-range access", "statement": "Sampling a reaction that the library has read from an ACE file never accesses memory outside the reaction's tables, whatever laws the file combines.", "quantifier": "every ACE file the constructors accept, every reaction, nuclides sharing the reactions of another, every energy, every threshold, every stream of numbers in [0,1)", "why_tests_cant": "an out-of-range read of a vector usually returns some number, and it happens only for particular combinations of table lengths, energies and random numbers", "anchors": ["src/reaction_base.cpp: ReactionBase", "include/PapillonNDL/reaction_base.hpp: sample_neutron_angle_energy", "src/multiple_distribution.cpp: sample_angle_energy", "src/kalbach.cpp: sample_angle_energy", "src/tabular_energy_angle.cpp: sample_angle_energy", "src/angle_distribution.cpp: sample_angle", "src/st_neutron.cpp: STNeutron"]}
{"id": "C137", "title": "The cosine sampled from a reaction is a cosine", "statement": "Whenever sampling a reaction that the library has read from an ACE file returns, the scattering cosine it returns is in [-1, 1], whatever laws the file combines and in whichever frame they are given.", "quantifier": "every ACE file the constructors accept, every reaction, nuclides sharing the reactions of another, every positive energy, every stream of numbers in [0,1)", "why_tests_cant": "a cosine outside [-1,1] shows only for particular tables and random numbers, and only as NaN in the caller's rotation of the direction", "anchors": ["src/reaction_base.cpp: ReactionBase", "include/PapillonNDL/reaction_base.hpp: sample_neutron_angle_energy", "src/cm_distribution.cpp: sample_angle_energy", "src/kalbach.cpp: sample_angle_energy", "src/tabular_energy_angle.cpp: sample_angle_energy", "src/st_neutron.cpp: STNeutron"]}
{"id": "C138", "title": "A thermal scattering law read from a file can be sampled without out-of-range access", "statement": "Sampling the inelastic, coherent elastic or incoherent elastic part of a thermal scattering law that the library has read from an ACE file never accesses memory outside the law's tables.", "quantifier": "every ACE file the constructor accepts, both interpolation modes, every energy, every stream of numbers in [0,1)", "why_tests_cant": "an out-of-range read of a vector usually returns some number, and it happens only for particular table lengths, energies and random numbers", "anchors": ["src/st_thermal_scattering_law.cpp: STThermalScatteringLaw", "src/continuous_energy_discrete_cosines.cpp: sample_angle_energy, sample_energy", "src/discrete_cosines_energies.cpp: sample_angle_energy", "include/PapillonNDL/st_coherent_elastic.hpp: sample_angle_energy", "include/PapillonNDL/st_incoherent_elastic_ace.hpp: sample_angle_energy"]}
{"id": "C139", "title": "The cosine sampled from a thermal law is a cosine", "statement": "Whenever sampling a part of a thermal scattering law read from a file returns, the cosine is in [-1, 1]; elastic scattering keeps the energy, and discrete inelastic scattering returns a positive energy.", "quantifier": "every ACE file the constructor accepts, both interpolation modes, every energy, every stream of numbers in [0,1)", "why_tests_cant": "the incoherent elastic cosine is smeared without a clamp, and whether it stays in range depends on the order and spacing of all tabulated cosines of two neighbouring energies", "anchors": ["src/st_thermal_scattering_law.cpp: STThermalScatteringLaw", "src/continuous_energy_discrete_cosines.cpp: sample_angle_energy", "src/discrete_cosines_energies.cpp: sample_angle_energy", "include/PapillonNDL/st_coherent_elastic.hpp: sample_angle_energy", "include/PapillonNDL/st_incoherent_elastic_ace.hpp: sample_angle_energy"]}
{"id": "C140", "title": "Evaluating the density of a tabulated law never reads outside its tables, also with infinities and NaNs", "statement": "TabularEnergy::pdf, Kalbach::pdf and TabularEnergyAngle::pdf of laws built by their constructors never access memory outside their tables; in particular the NaN or infinity that IEEE arithmetic produces when the window of outgoing energies has no width is not used to index a table.", "quantifier": "every law the constructors accept with at least two incoming energies, every incoming energy, cosine and outgoing energy", "why_tests_cant": "a NaN search key gives the iterator begin(), which is then decremented; the read usually returns some number, and only degenerate tables reach it", "anchors": ["src/tabular_energy.cpp: pdf", "src/kalbach.cpp: pdf", "src/tabular_energy_angle.cpp: pdf", "include/PapillonNDL/pctable.hpp: pdf", "include/PapillonNDL/kalbach_table.hpp: pdf", "include/PapillonNDL/energy_angle_table.hpp: pdf"]}
{"id": "C141", "title": "Sampling Kalbach-Mann data never reads outside its tables, also with infinities and NaNs", "statement": "Sampling angle and energy from a Kalbach law built by its constructor never accesses memory outside its tables, whatever the random numbers; in particular a sampled energy that is infinite or NaN is not used to index the tables of R and A.", "quantifier": "every Kalbach law the constructors accept with at least two incoming energies, every incoming energy, every stream of numbers in [0,1)", "why_tests_cant": "it needs a random number inside one particular step of one table; the read usually returns some number", "anchors": ["src/kalbach.cpp: sample_angle_energy", "include/PapillonNDL/kalbach_table.hpp: sample_energy, R, A"]}
{"id": "C142", "title": "A sampled outgoing energy is never negative, for any file read", "statement": "For every ACE file with a positive atomic weight ratio that the constructors accept, every reaction in it, every positive incident energy and every random stream in [0,1): if sampling the reaction's secondary distribution returns, the outgoing energy is not negative. For a reaction given in the centre-of-mass frame this needs nothing of the data and the energy is in fact positive from the threshold on; for a lab-frame law it needs that the tabulated data hold no negative energy (and that the incident energy is not below a level's offset, or the N-body kinematic maximum).", "quantifier": "all file contents, reactions, incident energies, random streams and rejection-loop lengths", "why_tests_cant": "ranges over every accepted file, energy and stream; a negative energy appears only for particular data and incident energies", "anchors": ["src/reaction.cpp", "src/level_inelastic_scatter.cpp", "src/cm_distribution.cpp: CMDistribution::sample_angle_energy", "src/tabular_energy.cpp", "src/kalbach.cpp", "src/tabular_energy_angle.cpp", "src/nbody.cpp", "src/maxwellian.cpp", "src/watt.cpp"]}
{"id": "C143", "title": "Sampling a reaction read from a file returns a sample", "statement": "For every ACE file with a positive atomic weight ratio that the constructors accept, every reaction in it that emits neutrons, every positive incident energy and every random stream in [0,1): sampling returns a finite cosine in [-1,1] and energy (or is still rejecting candidates after the given number of turns); it raises no exception, computes no undefined number and reads nothing out of bounds, provided the tables are covered by their densities and can be evaluated at the incident energy. The one exception is an emission straight back at the speed of the centre of mass.", "quantifier": "all file contents, reactions, incident energies, random streams and rejection-loop lengths", "why_tests_cant": "ranges over every accepted file, energy and stream; a missed branch of any law would show up only for particular data", "anchors": ["src/reaction.cpp", "src/cm_distribution.cpp: CMDistribution::sample_angle_energy", "src/kalbach.cpp", "src/tabular_energy_angle.cpp", "src/nbody.cpp", "src/maxwellian.cpp", "src/watt.cpp", "src/pctable.cpp: PCTable::sample_value", "src/delayed_family.cpp"]}
{"id": "C144", "title": "Successive samples are independent and identically distributed", "statement": "If the random numbers of the stream are independent and uniform, then n successive calls of a sampling method (angular distributions, energy laws, whole reactions in either frame, elastic scattering off a target at rest, a free gas or with DBRC, thermal coherent and incoherent elastic and inelastic laws), each reading on where the one before stopped, return n independent values of one law - the law of a single call, which has the reported density if the data are sound - for every n and every starting position, whatever the data as long as a call returns with probability one.", "quantifier": "all n, all starting positions, all families of measurable sets, all data and incident energies; the reported density for sound data", "why_tests_cant": "a statement about a probability law on infinite streams and any number of calls; rejection loops consume a random number of draws, so independence is not visible in any finite run", "anchors": ["src/angle_distribution.cpp", "src/reaction.cpp", "src/cm_distribution.cpp", "src/elastic.cpp", "src/elastic_svt.cpp", "src/elastic_dbrc.cpp", "src/st_coherent_elastic.cpp", "src/st_incoherent_elastic_ace.cpp", "src/discrete_cosines_energies.cpp", "src/continuous_energy_discrete_cosines.cpp", "tools/src/spndl.cpp: reaction"]}
{"id": "C145", "title": "The sampling program saves exactly what was sampled", "statement": "The program spndl exits with status 0 if and only if it saves an array; the array then has one column for each sample asked for, holding the energy and the cosine of the successive samples, in order, of the distribution asked for, at the energy (and temperature) asked for, from one random stream. Reactions that the nuclide lacks, energies not above the threshold, absent thermal laws and unreadable files give status 1 and no file. For sound data the columns are independent with the reported density.", "quantifier": "all files, modes, MT numbers, energies, temperatures, numbers of samples and random streams", "why_tests_cant": "ranges over every file, request and stream; that the columns are the samples in order for every count needs induction", "anchors": ["tools/src/spndl.cpp: main, reaction, elastic, coherent_elastic, incoherent_elastic, incoherent_inelastic"]}
{"id": "C146", "title": "What a library returns does not depend on the calls made before", "statement": "Let a program make any sequence of load_STNeutron, load_STTSL and nuclide.elastic() setter calls on a library, some of them failing. The table a request selects depends on the request and the library only. The nuclide returned for it has the cross sections, thresholds, energy grid, probability tables and temperature of that table whatever was called before; the thermal scattering law returned is the one made from that table's file; a nuclide already returned is changed only by the setters called on it; and the distributions and settings of the nuclide do not depend on the calls made before either.", "quantifier": "every library with nothing loaded, every history of calls with any outcomes, every pair of requests selecting the same table", "why_tests_cant": "a claim about every history of loads, failures and setter calls; the order dependence only shows when a later table shares the state of an earlier one", "anchors": ["src/nd_library.cpp:134 NDLibrary::load_STNeutron", "src/nd_library.cpp:211 NDLibrary::load_STTSL", "src/st_neutron.cpp:134 STNeutron::STNeutron(const ACE&, const STNeutron&)", "include/PapillonNDL/st_neutron.hpp:173 STNeutron::elastic"]}
{"id": "C147", "title": "A reported density is never negative, for any file read", "statement": "For every ACE file that is accepted, every reaction of the nuclide (with pdf and angle_pdf of its neutron distribution), every angular distribution and every delayed-neutron spectrum: whenever a density is reported, for any incident energy, cosine and outgoing energy, possible or not, the value is not negative.", "quantifier": "every file, reaction, law (all ACE laws the library reads), mixture and frame; every incident energy, cosine and outgoing energy", "why_tests_cant": "ranges over every file and every real argument, including arguments the law cannot produce and tables out of order; negative values only show for particular data", "anchors": ["include/PapillonNDL/angle_energy.hpp:69 AngleEnergy::angle_pdf", "include/PapillonNDL/angle_energy.hpp:80 AngleEnergy::pdf", "src/angle_distribution.cpp:142 AngleDistribution::pdf", "src/nbody.cpp:117 NBody::pdf", "src/kalbach.cpp:174 Kalbach::pdf", "src/maxwellian.cpp:95 Maxwellian::pdf", "src/watt.cpp:133 Watt::pdf", "src/cm_distribution.cpp:78 CMDistribution::pdf", "src/multiple_distribution.cpp:89 MultipleDistribution::pdf"]}
{"id": "C148", "title": "The prompt fission spectrum of a nuclide", "statement": "For every file and nuclide made from it, `fission().prompt_spectrum()` is the neutron distribution of MT 18 if the nuclide has that reaction, else the partial fission reactions 19, 20, 21, 38 in proportion to their cross sections at the incident energy; it samples cosines in [-1, 1] and energies that are not negative without leaving its tables, the law of its samples is that mixture, and the densities it reports are those of what it samples and not negative.", "quantifier": "all files and contents, nuclides made directly or by sharing, incident energies, random streams, cosines and outgoing energies", "why_tests_cant": "the choice depends on the incident energy, on four cross sections and thresholds and on a random number; tests sample a few energies and cannot see the law of the samples", "anchors": ["src/fission.cpp", "src/summed_fission_spectrum.cpp", "include/PapillonNDL/fission.hpp", "include/PapillonNDL/summed_fission_spectrum.hpp"]}
{"id": "C149", "title": "A reported density vanishes at outgoing energies the law cannot give", "statement": "For every ACE file the constructors accept, every reaction in it (and every delayed-neutron spectrum), every positive incident energy, cosine and outgoing energy: if pdf(E_in, mu, E_out) returns a number other than zero, the outgoing energy lies in the range one of the reaction's laws covers at that incident energy: the window interpolated between the ends of the two neighbouring tables, the neighbouring sets of bins, [0, E_in - U] for the analytic spectra, [0, Emax] for N bodies; for a mixture, a law whose probability is not zero; in the centre-of-mass frame, the energy in that frame. False for tables holding a single outgoing energy (the density is then positive everywhere) and for four-body phase space (positive at all energies above the kinematic maximum).", "quantifier": "all files, reactions, incident energies, cosines and outgoing energies", "why_tests_cant": "Ranges over all tables and all real energies; the two failures need particular data (a discrete line next to a wide table, exactly four bodies) and an energy outside the range.", "anchors": ["src/tabular_energy.cpp TabularEnergy::pdf", "src/kalbach.cpp Kalbach::pdf", "src/tabular_energy_angle.cpp TabularEnergyAngle::pdf", "src/nbody.cpp NBody::pdf", "src/equiprobable_energy_bins.cpp pdf", "src/cm_distribution.cpp CMDistribution::pdf", "src/multiple_distribution.cpp pdf"]}
{"id": "C150", "title": "Energies of the interpolated spectra in binary64", "statement": "In binary64 arithmetic, with any rounding to nearest, an outgoing energy sampled from an interpolated tabular spectrum or a Kalbach law whose tables hold no negative energy is not negative, and it does not exceed the largest energy interpolated between those of the two neighbouring tables.", "quantifier": "every round-to-nearest rule, every grid and every pair of tables of binary64 numbers the constructors accept, every binary64 incident energy, every pair of random numbers", "why_tests_cant": "The rounded difference of the interpolated ends can come out below zero and the rounded fraction above one; whether the sum is then negative depends on the last bits of six tabulated numbers.", "anchors": ["src/tabular_energy.cpp TabularEnergy::sample_energy", "src/kalbach.cpp Kalbach::sample_angle_energy", "include/PapillonNDL/pctable.hpp sample_value"]}
{"id": "C151", "title": "A call uses the random numbers it consumes, in order, and no others", "statement": "Whenever a sampling call returns having drawn n random numbers, any other call of the same method on the same object and energy whose generator delivers the same n numbers returns the same value and also draws exactly n, whatever the generator delivered before and would deliver after. So a history can be replayed from the numbers it consumed, successive calls use disjoint stretches of the generator, and no sampler keeps a state between calls. This holds for angular distributions, all energy and energy-angle laws, reactions, the summed fission spectrum, both target velocity methods, elastic scattering and all thermal scattering laws.", "quantifier": "every object (no soundness of the data required), every incident energy, every stream of numbers and every position in it, every number of rounds of the rejection loops", "why_tests_cant": "The number of draws of the rejection loops is unbounded and depends on the numbers drawn; a sampler that read a number ahead, or kept a spare one as many normal samplers do, would agree with tests that look at one call at a time.", "anchors": ["include/PapillonNDL/angle_distribution.hpp sample_angle", "include/PapillonNDL/angle_energy.hpp sample_angle_energy", "include/PapillonNDL/reaction_base.hpp sample_neutron_angle_energy", "src/elastic.cpp Elastic::sample_angle_energy", "src/elastic_svt.cpp sample_target_velocity", "src/elastic_dbrc.cpp sample_target_velocity", "include/PapillonNDL/rng.hpp", "src/summed_fission_spectrum.cpp"]}
{"id": "C152", "title": "Successive calls of a sampling method are independent and identically distributed", "statement": "When the random numbers handed to the library are independent and uniform on [0, 1], successive calls of a sampling method on one object, sharing one generator, are independent and identically distributed: for every number of calls, every position of the generator at the first, and all measurable sets S_0, S_1, ..., the probability that all calls return, the i-th with a value in S_i, is the product of the probabilities that a single call, made at any point of the stream, returns with a value in S_i. No soundness of the data is assumed: this holds even for tables whose samples do not follow the reported density, and for methods that may throw or fail to return.", "quantifier": "every object (no soundness of the data required), every incident energy, every number of calls, every position, all measurable sets; angular distributions, all laws, reactions, the summed fission spectrum, both target velocity methods, elastic scattering and the thermal laws", "why_tests_cant": "Independence and equality in law are statements about probabilities of all sets under unboundedly many draws; a sampler with a variable number of draws that reused or skipped a number would pass any goodness-of-fit test of single calls.", "anchors": ["include/PapillonNDL/angle_distribution.hpp sample_angle", "include/PapillonNDL/angle_energy.hpp sample_angle_energy", "include/PapillonNDL/reaction_base.hpp sample_neutron_angle_energy", "src/elastic.cpp Elastic::sample_angle_energy", "src/elastic_svt.cpp sample_target_velocity", "src/elastic_dbrc.cpp sample_target_velocity", "include/PapillonNDL/rng.hpp", "src/summed_fission_spectrum.cpp", "include/PapillonNDL/st_coherent_elastic.hpp"]}
{"id": "C153", "title": "From the characters of a file to the nuclide", "statement": "The nuclide (or thermal scattering law) made from an ACE text file depends only on the numbers written in it: two files with the same header numbers and the same NXS, JXS and XSS values give the same object, or the same error, whatever the form of the header, the white space and the spelling of the numbers. If the numbers are a neutron table of the ACE format, the nuclide has the Z and A of NXS(2), the atomic weight ratio and temperature of the header, the energies and the total, disappearance, elastic and heating columns of the table, and exactly its reactions with their values, starts and thresholds. Converting the file to binary with save_binary and reading it back gives the same nuclide and the same thermal scattering law, up to the effect on the temperature of dividing and multiplying by one constant; a changed temperature changes nothing in the nuclide but its temperature and the target temperature of elastic scattering.", "quantifier": "all text files of the three header forms (any number of entries, any white space, any spelling of the numbers), all tables, all objects satisfying the invariants of a read", "why_tests_cant": "The number of spellings of a file and of tables is unbounded; tests compare a few files of one processing code.", "anchors": ["src/ace.cpp ACE::ACE, read_ascii, read_binary, save_binary", "include/PapillonNDL/ace.hpp ESZ .. GPD, nxs, jxs, xss", "src/st_neutron.cpp STNeutron", "src/st_thermal_scattering_law.cpp STThermalScatteringLaw"]}
{"id": "C154", "title": "An energy grid can be re-hashed at any time and announces the unresolved region of its nuclide", "statement": "After any sequence of hash_energy_grid calls an EnergyGrid has the same energies, get_lower_index gives for every energy the same index as before, and urr_min_energy and has_urr are unchanged. has_urr is true exactly when the nuclide has usable probability tables (urr_ptables().is_valid()), and urr_min_energy is then their first energy.", "quantifier": "every constructed grid and nuclide, every sequence of numbers of bins between 1 and 2^32-2, every energy", "why_tests_cant": "unbounded histories, grids and files", "anchors": ["src/energy_grid.cpp: EnergyGrid, hash_energy_grid", "include/PapillonNDL/energy_grid.hpp: has_urr, urr_min_energy, get_lower_index", "include/PapillonNDL/urr_ptables.hpp: is_valid"]}
{"id": "C155", "title": "Analytic spectra return usable numbers in floating point", "statement": "In binary64 arithmetic, with rounding, overflow and special values, and whatever the mathematical library returns, an energy returned by the Maxwell, evaporation and Watt spectra is a finite number between zero and the incoming energy, at most E - U rounded; a level energy is between zero and the incoming energy, an isotropic cosine in [-1, 1], and N-body phase space returns a number between zero and its computed maximum energy and a cosine in [-1, 1].", "quantifier": "every rounding to nearest, every library, every parameter, incoming energy and stream of random numbers", "why_tests_cant": "all doubles, all libraries, all random streams; a draw of exactly zero is practically never seen in a test", "anchors": ["src/maxwellian.cpp: sample_energy", "src/evaporation.cpp: sample_energy", "src/watt.cpp: sample_energy", "src/level_inelastic_scatter.cpp: sample_energy", "src/nbody.cpp: sample_angle_energy, maxwellian_spectrum", "src/isotropic.cpp: sample_mu"]}
{"id": "C156", "title": "The two sampling programs can be compared", "statement": "If OpenMC's reaction is the one the library samples, sopenmc saves an array if and only if spndl does, and the same one, energies in MeV, laws in the centre of mass being changed to the laboratory frame as the library does; sopenmc saves only successive samples of what was asked for and refuses with status 1 otherwise; in the elastic modes every sample starts from the energy and direction asked for. Both programs warn exactly when a thermal law is sampled above 4 eV, and when the sampled velocity of the target is asked for from 400 kT on.", "quantifier": "every mode, MT, energy, temperature, number of samples and random stream; every OpenMC data and sampling method", "why_tests_cant": "all energies and streams; comparison of two programs", "anchors": ["tools/src/sopenmc.cpp: reaction, elastic, coherent_elastic, incoherent_elastic, incoherent_inelastic, main", "tools/src/spndl.cpp: reaction, main", "include/PapillonNDL/frame.hpp: CMToLab::transform"]}
{"id": "C157", "title": "Cosines of Kalbach-Mann data in floating point", "statement": "In binary64 arithmetic, with rounding, overflow and special values, every cosine sampled from Kalbach-Mann parameters R and A is a number in [-1, 1], and draws whose exact cosines are different from -1 and go backwards are not sent to -1 or +1.", "quantifier": "every rounding to nearest, every library with a correctly rounded square root, every R and A and every pair of random numbers", "why_tests_cant": "all doubles and all pairs of random numbers; the wrong cosines are valid cosines, so no range check finds them", "anchors": ["src/kalbach.cpp: sample_angle_energy"]}
{"id": "C158", "title": "Nuclides own their elastic distributions", "statement": "A program may construct nuclides, derive them from others, copy, assign and destroy them, set the temperature, thresholds and broadener of their elastic distributions, and keep or drop its own pointers to broadeners, in any order: no destroyed object is ever used, nothing leaks when the last owner is gone, a nuclide's elastic distribution changes only through a setter called on that nuclide, a derived nuclide starts with the distribution of its parent at the new temperature, and references returned by the accessors stay valid as long as the nuclide lives.", "quantifier": "every program (sequence of those statements), all nuclides, broadeners and temperatures", "why_tests_cant": "all histories of construction, copying, assignment, destruction and setting; dangling references and leaks are not observable in a passing test", "anchors": ["include/PapillonNDL/st_neutron.hpp: elastic_, elastic", "include/PapillonNDL/elastic.hpp: clone, elastic_doppler_broadener", "src/elastic.cpp: set_elastic_doppler_broadener, set_temperature", "src/st_neutron.cpp: STNeutron(ace, nuclide)"]}
{"id": "C159", "title": "An interrupted save is noticed or harmless", "statement": "If save_binary stops at any point (crash, power failure, full disk), loading the file afterwards either gives the table that was saved (or the one that was there before) or is refused with an exception; it never silently gives another table and never uses what was not read.", "quantifier": "every table, every previous contents of the file, every stop after any number of bytes", "why_tests_cant": "all crash points of all tables", "anchors": ["src/ace.cpp: save_binary, read_binary"]}
{"id": "C160", "title": "Grids, cross sections and laws in Python", "statement": "In Python, grid[i] and xs[i] are the i-th grid point and the cross section there, an index outside is refused with an exception, iterating over a grid or cross section (for, list, in) gives its points in order and ends, and a law written in Python gives the library what its methods return, None meaning that there is no density.", "quantifier": "every grid, cross section, integer index and value; every result of a method written in Python", "why_tests_cant": "all indices and sizes; iteration past the end reads memory it does not own without failing visibly", "anchors": ["src/python/energy_grid.cpp: init_EnergyGrid", "src/python/cross_section.cpp: init_CrossSection", "src/python/energy_law.cpp: PyEnergyLaw", "src/python/angle_energy.cpp: PyAngleEnergy", "src/python/angle_law.cpp: PyAngleLaw"]}
{"id": "C161", "title": "Equiprobable cosine bins are sampled bin by bin", "statement": "A cosine drawn from an angular law of 32 equiprobable bins lies in each bin with probability 1/32 and is uniform inside it, so that the drawn cosines have the density the law reports, whatever the 33 bounds; angular distributions and elastic scattering that use such a law have the law that follows from it.", "quantifier": "every set of 33 bounds the constructor accepts, every angular distribution built from such laws and others, every incident energy, target mass and temperature, every measurable set of outcomes", "why_tests_cant": "it is an equality of probability laws for every set of bounds; a statistical test compares finitely many samples of finitely many data sets", "anchors": ["src/equiprobable_angle_bins.cpp: EquiprobableAngleBins::sample_mu, pdf", "src/angle_distribution.cpp: AngleDistribution::sample_angle", "src/elastic.cpp: Elastic::sample_angle_energy"]}
{"id": "C162", "title": "Elastic thermal cosines need no clamp in double arithmetic", "statement": "A sample returned by coherent or incoherent elastic thermal scattering has the incident energy and a cosine in [-1, 1] in binary64 arithmetic, although neither class clamps the computed cosine.", "quantifier": "every ACE file of doubles the constructor accepts, every incident energy that is a double, every sequence of doubles in [0, 1) from the generator", "why_tests_cant": "the margin is a single rounding at either end and depends on the rounding of up to ten operations; no set of tests covers all weights, neighbouring cosines and random numbers", "anchors": ["include/PapillonNDL/st_incoherent_elastic_ace.hpp: STIncoherentElasticACE::sample_angle_energy", "include/PapillonNDL/st_coherent_elastic.hpp: STCoherentElastic::sample_angle_energy"]}
{"id": "C163", "title": "Cross-section packets hold together in double arithmetic", "statement": "In binary64 arithmetic the entries of the packets that a nuclide and its probability tables return are not negative, no part exceeds its whole, and the parts add up to the total up to a few roundings; a nuclide in which only elastic scattering and absorption happen has no inelastic cross section.", "quantifier": "every nuclide and every set of probability tables of doubles on a grid of distinct energies, every energy and index that brackets it, every way of rounding to nearest, every library logarithm and exponential", "why_tests_cant": "the inelastic entry is what is left after two subtractions of numbers that were interpolated and rounded separately; its sign depends on the last bits of every table entry and energy", "anchors": ["include/PapillonNDL/st_neutron.hpp: STNeutron::evaluate_xs", "src/st_neutron.cpp: STNeutron::compute_fission_xs", "include/PapillonNDL/urr_ptables.hpp: URRPTables::evaluate_xs", "include/PapillonNDL/cross_section.hpp: CrossSection::operator()"]}
{"id": "C164", "title": "A mixture samples components that can occur, in double arithmetic", "statement": "In binary64 arithmetic a mixture of distributions, and a summed fission spectrum, compare one random number with thresholds that are the cumulative probabilities up to a rounding error for each component, so that each component is used with its probability up to that error, and a component of probability zero is never sampled.", "quantifier": "every mixture and every four partial fission reactions of doubles, every energy, every random number, every way of rounding to nearest", "why_tests_cant": "whether the running sum of the probabilities reaches 1 depends on the last bits of every probability; a test with a seeded generator does not meet the few random numbers next to 1 where it matters", "anchors": ["src/multiple_distribution.cpp: MultipleDistribution::sample_angle_energy", "src/summed_fission_spectrum.cpp: SummedFissionSpectrum::compute_probabilities, SummedFissionSpectrum::sample_angle_energy"]}
{"id": "C165", "title": "Equiprobable bins and angular distributions in double arithmetic", "statement": "In binary64 arithmetic sampling equiprobable energy bins, a general evaporation spectrum or an angular distribution returns a value: an energy between two consecutive bounds of a neighbouring incoming energy (times the computed temperature for evaporation), never outside the bin by rounding, monotone in the second draw and within a few roundings of the exact point; a cosine in [-1, 1]; and at a tabulated energy only the law of that energy is used.", "quantifier": "every set of sorted double bounds, every grid, every law, every stream of doubles in [0,1), every way of rounding to nearest", "why_tests_cant": "whether (hi - lo) * xi + lo stays at or below hi depends on the last bits of the bounds and the draw; no finite set of seeds and tables covers them", "anchors": ["src/equiprobable_energy_bins.cpp: EquiprobableEnergyBins::sample_energy, EquiprobableEnergyBins::sample_bins", "src/general_evaporation.cpp: GeneralEvaporation::sample_energy", "src/isotropic.cpp: Isotropic::sample_mu", "src/equiprobable_angle_bins.cpp: EquiprobableAngleBins::sample_mu", "src/angle_table.cpp: AngleTable::sample_mu", "src/legendre.cpp: Legendre::sample_mu", "src/angle_distribution.cpp: AngleDistribution::sample_angle"]}
{"id": "C166", "title": "Inelastic thermal scattering in double arithmetic", "statement": "In binary64 arithmetic the inelastic thermal laws behave as they do with real numbers: a draw from a law of discrete energies always succeeds with both indices in range, a cosine in [-1, 1] and a positive energy within a few roundings of the interpolation; a draw from a law of continuous energies never gives a cosine outside [-1, 1], nor a negative energy when the incoming energy is at least half the lowest tabulated one.", "quantifier": "every well-formed table of doubles (and every accepted file), every incoming energy, every stream of doubles in [0,1), every way of rounding to nearest", "why_tests_cant": "whether the computed weight exceeds one half, or the computed energy falls below zero, depends on the last bits of the tabulated numbers and of the energy", "anchors": ["src/discrete_cosines_energies.cpp: DiscreteCosinesEnergies::sample_angle_energy", "src/continuous_energy_discrete_cosines.cpp: ContinuousEnergyDiscreteCosines::sample_angle_energy, CEDCTable::sample_energy"]}
{"id": "C167", "title": "Rejection-sampled spectra and the N-body law in double arithmetic", "statement": "In binary64 arithmetic, with any logarithm that is negative below one and any cosine at all, the Maxwellian, evaporation and Watt spectra only ever return an energy between 0 and the computed E_in - U, hence never above E_in when U is not negative, and it is the first candidate drawn that is acceptable; they never return when E_in < U. The N-body law always returns a cosine in [-1, 1] and an energy that is a fraction between 0 and 1 of the computed kinematic maximum, whose sign is that of the energy available when the total mass ratio is at least 1.", "quantifier": "every parameters of the laws (doubles), every incoming energy, every stream of doubles in (0,1) (for the N-body law not below 2^-64), every way of rounding to nearest, every logarithm, exponential and cosine of the library", "why_tests_cant": "the bounds depend on the last bits of the candidates and of E_in - U, on the stream of random numbers and on the mathematical library", "anchors": ["src/maxwellian.cpp: Maxwellian::sample_energy", "src/evaporation.cpp: Evaporation::sample_energy", "src/watt.cpp: Watt::sample_energy", "src/nbody.cpp: NBody::sample_angle_energy, NBody::maxwellian_spectrum"]}
{"id": "C168", "title": "Polynomials, inelastic levels and discrete photons in double arithmetic", "statement": "In binary64 arithmetic a polynomial of n coefficients is evaluated within ((1+u)^2n - 1) \u03a3|c_i||x|^i (and an explicit underflow term), never decreases with the argument when nothing is negative, and its integral always exists, is 0 over an empty range and not negative in the natural case. Scattering on an inelastic level never gains energy, gives no negative energy at or above its first parameter and no positive one below, within two roundings of the formula, and does not decrease with the incoming energy. A discrete photon has at least its tabulated energy, at most that plus the incoming energy, exactly the tabulated energy for a primary flag of 0 or 1, and does not decrease with the incoming energy.", "quantifier": "every list of coefficients (doubles), every argument and bounds, every Q-value and mass ratio, every incoming energy, every way of rounding to nearest", "why_tests_cant": "rounding errors depend on the last bits of every coefficient and argument, and their accumulation on the degree", "anchors": ["src/polynomial_1d.cpp: Polynomial1D::operator(), Polynomial1D::integrate", "src/level_inelastic_scatter.cpp: LevelInelasticScatter::LevelInelasticScatter, LevelInelasticScatter::sample_energy", "include/PapillonNDL/discrete_photon.hpp: DiscretePhoton::sample_energy"]}
{"id": "C169", "title": "Tabulated energy-angle distributions in double arithmetic", "statement": "In binary64 arithmetic a tabulated energy-angle distribution returns a cosine in [-1, 1] and consumes three random numbers; the energy drawn from a table is not below the lower end of the cell selected, nor below the table's smallest energy; the energy returned is never negative (when the tables start at energy 0) and does not exceed the largest tabulated energy.", "quantifier": "every well-formed law of tables of doubles, every incoming energy, every stream of random numbers up to 1, every way of rounding to nearest", "why_tests_cant": "whether the computed energy leaves the table depends on the last bits of densities and random number", "anchors": ["include/PapillonNDL/energy_angle_table.hpp: EnergyAngleTable::sample_angle_energy", "src/tabular_energy_angle.cpp: TabularEnergyAngle::sample_angle_energy"]}
{"id": "C170", "title": "Coherent elastic cross section and samples together give the Bragg formula", "statement": "At an energy E between two Bragg edges, the cross section that xs(E) reports times the mean, over the samples sample_angle_energy(E) returns, of any quantity g(mu, E') is the sum over the edges E_m below E of (S_m - S_(m-1)) g(1 - 2E_m/E, E), divided by E; in particular the cross section for one edge is its step over E and the transport cross section is 2/E^2 times the sum of the steps times their edges.", "quantifier": "every coherent elastic law with non-negative non-decreasing structure factors, every energy, every quantity g, in law over the stream of random numbers", "why_tests_cant": "equality of a tabulated cross section and an expectation over infinitely many streams, for every energy and every quantity scored", "anchors": ["include/PapillonNDL/st_coherent_elastic.hpp: STCoherentElastic::xs", "include/PapillonNDL/st_coherent_elastic.hpp: STCoherentElastic::sample_angle_energy"]}
{"id": "C171", "title": "Mean energy loss and mean cosine of isotropic elastic scattering", "statement": "For elastic scattering off a target at rest whose angular distribution is isotropic in the centre of mass, the mean of the cosines returned is 2/(3A) for a target at least as heavy as the neutron and 1 - A^2/3 for a lighter one, and the mean of the energies returned is E(A^2+1)/(A+1)^2, the middle of the interval [((A-1)/(A+1))^2 E, E]; for any angular distribution the mean energy is that of the mean reported cosine.", "quantifier": "every mass ratio, every energy at which the target is taken at rest, every Doppler broadener, in law over the stream of random numbers", "why_tests_cant": "an expectation over infinitely many streams, for every mass ratio and energy", "anchors": ["src/elastic.cpp: Elastic::sample_angle_energy", "src/angle_distribution.cpp", "include/PapillonNDL/isotropic.hpp"]}
