{
 "claims": [
  {
   "property": "C01",
   "status": "proved",
   "theorems": [
    "PNDL.C01_zaid_injective",
    "PNDL.C01_order_agrees",
    "PNDL.C01_strict_total_order",
    "PNDL.C01_hash_consistent",
    "PNDL.C01_bound_needed"
   ],
   "note": "Injectivity and order agreement for A<1000; total-order laws unconditionally; hash abstract."
  },
  {
   "property": "C02",
   "status": "proved",
   "theorems": [
    "PNDL.C02_element",
    "PNDL.C02_isotope",
    "PNDL.C02_zaid_and_accessors"
   ],
   "note": ""
  },
  {
   "property": "C03",
   "status": "proved",
   "theorems": [
    "PNDL.C03_roundtrip_iff",
    "PNDL.C03_encoding_collision",
    "PNDL.C03_violation",
    "PNDL.C03_violation_heavy"
   ],
   "note": "Exact iff characterisation of the round trip, with the collision and two decoded-to-another-nuclide witnesses for the excluded nuclides."
  },
  {
   "property": "C04",
   "status": "partial",
   "theorems": [
    "PNDL.C04_from_parts",
    "PNDL.C04_violation",
    "PNDL.C04_violation_wrap",
    "PNDL.C04_level_le_two_partial",
    "PNDL.C04_window_tight",
    "PNDL.C04_from_string"
   ],
   "note": "False of the code for ZAID-constructed nuclides (witnesses C04_violation, C04_violation_wrap); proved for the other constructors and for the window of encoded isomers, with tightness."
  },
  {
   "property": "C05",
   "status": "proved",
   "theorems": [
    "PNDL.C05_regex_languages",
    "PNDL.C05_element",
    "PNDL.C05_isotope_ofString",
    "PNDL.C05_nuclide_ofString",
    "PNDL.C05_isotope_roundtrip",
    "PNDL.C05_nuclide_roundtrip"
   ],
   "note": "Complete iff specification of the string constructors plus round trips; regexes modelled by scanners proved equal to the declarative languages."
  },
  {
   "property": "C06",
   "status": "proved",
   "theorems": [
    "PNDL.C06_advance_is_n_calls",
    "PNDL.C06_advance_then",
    "PNDL.C06_advance_compose",
    "PNDL.C06_seed_determines",
    "PNDL.C06_reset",
    "PNDL.C06_closed_form"
   ],
   "note": ""
  },
  {
   "property": "C07",
   "status": "proved",
   "theorems": [
    "PNDL.C07_period",
    "PNDL.C07_visits_every_state"
   ],
   "note": ""
  },
  {
   "property": "C08",
   "status": "proved",
   "theorems": [
    "PNDL.C08_range",
    "PNDL.C08_clamp_needed",
    "PNDL.C08_rounding_error"
   ],
   "note": ""
  },
  {
   "property": "C09",
   "status": "partial",
   "theorems": [
    "PNDL.C09_componentwise",
    "PNDL.C09_compound_assignment",
    "PNDL.C09_vector_laws",
    "PNDL.C09_violation_neg",
    "PNDL.C09_neg_iff",
    "PNDL.C09_neg_components_partial"
   ],
   "note": "Unary minus violates the additive-inverse law (C09_violation_neg); all other laws proved, and unary minus characterised exactly (C09_neg_iff)."
  },
  {
   "property": "C10",
   "status": "proved",
   "theorems": [
    "PNDL.C10_roundtrip"
   ],
   "note": "Floating point temperature scaling abstract (mulT/divT on bit patterns)."
  },
  {
   "property": "C11",
   "status": "partial",
   "theorems": [
    "PNDL.C11_violation",
    "PNDL.C11_violation_second_save",
    "PNDL.C11_others_unchanged_partial",
    "PNDL.C11_violation_nuclide"
   ],
   "note": "False of the code: save_binary divides temperature_ in place (C11_violation, C11_violation_second_save); the other members are unchanged. C11_violation_nuclide: a nuclide made from the object after saving has the divided temperature."
  },
  {
   "property": "C12",
   "status": "proved",
   "theorems": [
    "PNDL.C12_zaid",
    "PNDL.C12_zaid_code"
   ],
   "note": ""
  },
  {
   "property": "C13",
   "status": "partial",
   "theorems": [
    "PNDL.C13_fitting_records_safe_partial",
    "PNDL.C13_saved_records_fit",
    "PNDL.C13_violation",
    "PNDL.C13_violation_contrast",
    "PNDL.C13_iff",
    "PNDL.C13_file_safe_partial",
    "PNDL.C13_file_hypotheses"
   ],
   "note": "Exact characterisation for every byte string (C13_iff): the reader leaves its arrays, or uses a number it has not read, exactly for files shorter than 312 bytes, files that declare entries and end before the first record length, and files with a record larger than the room left. C13_file_safe_partial is the safe side (hypotheses met by every file with fitting records, C13_file_hypotheses, in particular saved ones, C13_saved_records_fit). Missing: the files on the other side, for which the claim is false (C13_iff, concrete witness C13_violation)."
  },
  {
   "property": "C14",
   "status": "proved",
   "theorems": [
    "PNDL.C14_left",
    "PNDL.C14_right",
    "PNDL.C14_histogram_right"
   ],
   "note": ""
  },
  {
   "property": "C15",
   "status": "proved",
   "theorems": [
    "PNDL.C15_invert_interpolate",
    "PNDL.C15_interpolate_invert",
    "PNDL.C15_flat_data"
   ],
   "note": "Histogram has no inverse and is excluded; degenerate (flat) data characterised by C15_flat_data."
  },
  {
   "property": "C16",
   "status": "partial",
   "theorems": [
    "PNDL.C16_integrate_partial",
    "PNDL.C16_violation_flat_loglin",
    "PNDL.C16_loglog_near"
   ],
   "note": "Exact equality proved for all rules except: LogLin with y1=y2, where the code computes 0/0 (C16_violation_flat_loglin), and LogLog with exponent within 1e-12 of -1 but not equal, where a two-sided bound is proved (C16_loglog_near)."
  },
  {
   "property": "C17",
   "status": "proved",
   "theorems": [
    "PNDL.C17_between",
    "PNDL.C17_nonneg"
   ],
   "note": ""
  },
  {
   "property": "C18",
   "status": "proved",
   "theorems": [
    "PNDL.C18_total",
    "PNDL.C18_no_gap",
    "PNDL.C18_succeeds",
    "PNDL.C18_unsafe_past_end",
    "PNDL.C18_unsafe_short",
    "Spec.C18_law",
    "Spec.C18_regions",
    "Spec.C18_one_law"
   ],
   "note": "Valid breakpoints: throw or tile; success on positive increasing data; two memory-unsafety witnesses for invalid breakpoints."
  },
  {
   "property": "C19",
   "status": "proved",
   "theorems": [
    "PNDL.C19_below",
    "PNDL.C19_above",
    "PNDL.C19_inside",
    "PNDL.C19_total",
    "PNDL.C19_zero_abscissa"
   ],
   "note": "Includes totality on admissible data; C19_zero_abscissa shows why admissibility (no zero abscissa under a log law) is needed."
  },
  {
   "property": "C20",
   "status": "partial",
   "theorems": [
    "PNDL.C20_reproduces_partial",
    "PNDL.C20_violation_histogram",
    "PNDL.C20_violation_witness"
   ],
   "note": "False of the code for Histogram (C20_violation_histogram, C20_violation_witness); proved for the other four laws."
  },
  {
   "property": "C21",
   "status": "proved",
   "theorems": [
    "PNDL.C21_integrate",
    "PNDL.C21_total",
    "PNDL.C21_antisymm",
    "PNDL.C21_additive",
    "PNDL.C21_example"
   ],
   "note": ""
  },
  {
   "property": "C22",
   "status": "partial",
   "theorems": [
    "PNDL.C22_boundary_jump_partial",
    "PNDL.C22_violation"
   ],
   "note": "False of the code for repeated abscissae inside a region (C22_violation, 0/0); proved for jumps at region boundaries."
  },
  {
   "property": "C23",
   "status": "partial",
   "theorems": [
    "PNDL.C23_original_safe_partial",
    "PNDL.C23_copy_while_source_lives_partial",
    "PNDL.C23_violation_copy",
    "PNDL.C23_violation_copy_happens",
    "PNDL.C23_violation_linearize",
    "PNDL.C23_example"
   ],
   "note": "False of the code: spans are copied memberwise, so copies and linearized tables dangle (C23_violation_copy, C23_violation_linearize, both for every table and every prior history). Proved: originals are safe under every history, copies while the source lives."
  },
  {
   "property": "C24",
   "status": "proved",
   "theorems": [
    "PNDL.C24_eval",
    "PNDL.C24_integrate"
   ],
   "note": ""
  },
  {
   "property": "C25",
   "status": "proved",
   "theorems": [
    "PNDL.C25_const",
    "PNDL.C25_sum_diff",
    "PNDL.C25_null",
    "PNDL.C25_tree",
    "PNDL.C25_smooth_tree",
    "PNDL.C25_table"
   ],
   "note": "Expression trees of any depth; tables at the leaves are covered on intervals inside their domain (C25_table)."
  },
  {
   "property": "C26",
   "status": "partial",
   "theorems": [
    "PNDL.C26_exact",
    "PNDL.C26_float",
    "PNDL.C26_table",
    "PNDL.C26_refines",
    "PNDL.C26_violation_empty",
    "PNDL.C26_interval"
   ],
   "note": "Proved for every f, tolerance and non-empty input, with exact and with rounded abscissae, down to the returned table (C26_table); the empty input reads out of range (C26_violation_empty)."
  },
  {
   "property": "C27",
   "status": "partial",
   "theorems": [
    "PNDL.C27_terminates_partial",
    "PNDL.C27_terminates_binary64_partial",
    "PNDL.C27_rounding_exists",
    "PNDL.C27_violation_overflow"
   ],
   "note": "Termination proved for every f and tolerance over correctly rounded binary floating point numbers (any tie rule) as long as sums do not overflow; false when they do (C27_violation_overflow)."
  },
  {
   "property": "C28",
   "status": "proved",
   "theorems": [
    "PNDL.C28_search",
    "PNDL.C28_lower_index",
    "PNDL.C28_unique",
    "PNDL.C28_zero_energy",
    "PNDL.C28_zero_bins",
    "PNDL.C28_max_bins"
   ],
   "note": "Exact logarithms and exponentials; C28_search is independent of how the bin bounds were rounded. Grids starting at zero and zero bins are excluded by the property and shown to fail. The excluded bin counts fail: zero divides by zero (C28_zero_bins), 2^32-1 wraps around and every look-up inside the grid is undefined behaviour (C28_max_bins)."
  },
  {
   "property": "C29",
   "status": "partial",
   "theorems": [
    "PNDL.C29_construction_partial",
    "PNDL.C29_violation",
    "PNDL.C29_const",
    "PNDL.C29_ace"
   ],
   "note": "Exact iff for every index below 2^32; the constructor truncates the index to 32 bits before checking it (C29_violation)."
  },
  {
   "property": "C30",
   "status": "proved",
   "theorems": [
    "PNDL.C30_below",
    "PNDL.C30_above",
    "PNDL.C30_inside",
    "PNDL.C30_total",
    "PNDL.C30_reproduces",
    "PNDL.C30_const"
   ],
   "note": ""
  },
  {
   "property": "C31",
   "status": "partial",
   "theorems": [
    "PNDL.C31_given_energies",
    "PNDL.C31_agree_partial",
    "PNDL.C31_lookup_partial",
    "PNDL.C31_violation_below",
    "PNDL.C31_violation_threshold"
   ],
   "note": "False of the code below the grid (extrapolation) and at the threshold energy (returns 0): C31_violation_below, C31_violation_threshold; agreement proved everywhere else, and the second clause unconditionally."
  },
  {
   "property": "C32",
   "status": "partial",
   "theorems": [
    "PNDL.C32_in_range_partial",
    "PNDL.C32_undefined_iff",
    "PNDL.C32_violation_start",
    "PNDL.C32_violation_range",
    "PNDL.C32_violation_div",
    "PNDL.C32_tight"
   ],
   "note": "False of the code: the constructors do not require the CDF to start at 0 nor the PDF to cover it (C32_violation_*). Proved for all covered tables; exact iff for the out-of-range read; necessity of the condition for histogram cells (C32_tight)."
  },
  {
   "property": "C33",
   "status": "proved",
   "theorems": [
    "PNDL.C33_inverts_cdf",
    "PNDL.C33_normalised",
    "PNDL.C33_density_exists",
    "PNDL.C33_monotone"
   ],
   "note": ""
  },
  {
   "property": "C34",
   "status": "proved",
   "theorems": [
    "PNDL.C34_pdf",
    "PNDL.C34_tabulated",
    "PNDL.C34_between"
   ],
   "note": ""
  },
  {
   "property": "C35",
   "status": "partial",
   "theorems": [
    "PNDL.C35_law_range",
    "PNDL.C35_distribution_range",
    "PNDL.C35_defined_partial",
    "PNDL.C35_legendre_fuel",
    "PNDL.C35_violation"
   ],
   "note": "Every returned cosine is in [-1,1] unconditionally; definedness fails for tables violating C32's condition (C35_violation)."
  },
  {
   "property": "C36",
   "status": "partial",
   "theorems": [
    "PNDL.C36_density_partial",
    "PNDL.C36_violation_outside_bin",
    "PNDL.C36_violation_distribution"
   ],
   "note": "False of the code: sample_mu uses 33 instead of 32 and ignores the bin width (C36_violation_*); the reported density is proved."
  },
  {
   "property": "C37",
   "status": "proved",
   "theorems": [
    "PNDL.C37_start",
    "PNDL.C37_bonnet",
    "PNDL.C37_ends",
    "PNDL.C37_orthogonal",
    "PNDL.C37_normalised",
    "PNDL.C37_moments",
    "PNDL.C37_constructors"
   ],
   "note": ""
  },
  {
   "property": "C38",
   "status": "partial",
   "theorems": [
    "PNDL.C38_order_zero",
    "PNDL.C38_success_partial",
    "PNDL.C38_outcome",
    "PNDL.C38_violation_unchanged",
    "PNDL.C38_violation_negative",
    "PNDL.C38_history_normalised"
   ],
   "note": "False of the code: coefficients are changed before the exception, and positivity is tested at 2001 points only (C38_violation_*)."
  },
  {
   "property": "C39",
   "status": "proved",
   "theorems": [
    "PNDL.C39_mix",
    "PNDL.C39_density",
    "PNDL.C39_sample",
    "PNDL.C39_constructor"
   ],
   "note": ""
  },
  {
   "property": "C40",
   "status": "partial",
   "theorems": [
    "PNDL.C40_undefined_iff",
    "PNDL.C40_in_bin_partial",
    "PNDL.C40_sample_partial",
    "PNDL.C40_violation_bins",
    "PNDL.C40_violation_evaporation",
    "PNDL.C40_violation",
    "PNDL.C40_evaporation_partial"
   ],
   "note": "False of the code: floor(bounds.size()*xi) indexes past the last bin exactly for xi >= (n-1)/n (C40_undefined_iff, C40_violation_bins, C40_violation_evaporation); proved for all smaller draws."
  },
  {
   "property": "C41",
   "status": "partial",
   "theorems": [
    "PNDL.C41_window_partial",
    "PNDL.C41_violation",
    "PNDL.C41_single_energy",
    "PNDL.C41_hypotheses"
   ],
   "note": "Proved for tables whose density covers the cumulative; false of the code for one-value tables (C41_violation, 0/0)."
  },
  {
   "property": "C42",
   "status": "proved",
   "theorems": [
    "PNDL.C42_maxwell",
    "PNDL.C42_evaporation",
    "PNDL.C42_watt",
    "PNDL.C42_pdf",
    "PNDL.C42_no_return",
    "PNDL.C42_maxwell_candidates",
    "PNDL.C42_evaporation_candidates",
    "PNDL.C42_watt_candidates"
   ],
   "note": "Partial correctness for every stream; never returns below the restriction energy (C42_no_return); candidates are positive for positive parameters."
  },
  {
   "property": "C43",
   "status": "partial",
   "theorems": [
    "PNDL.C43_accepts",
    "PNDL.C43_make",
    "PNDL.C43_fraction",
    "PNDL.C43_in_range_partial",
    "PNDL.C43_violation"
   ],
   "note": "Acceptance iff proved; energies are a fraction in (0,1] of Emax for every stream in (0,1); the code accepts Ap<1, where Emax and all energies are negative (C43_violation)."
  },
  {
   "property": "C44",
   "status": "proved",
   "theorems": [
    "PNDL.C44_cm_lab_cm",
    "PNDL.C44_lab_cm_lab",
    "PNDL.C44_defined",
    "PNDL.C44_undefined"
   ],
   "note": "Round trips both ways whenever the transforms are defined; the exact domain is proved (C44_defined); an emission that exactly stops the particle in the target frame is 0/0 (C44_undefined)."
  },
  {
   "property": "C45",
   "status": "proved",
   "theorems": [
    "PNDL.C45_cosine",
    "PNDL.C45_cosine_cm"
   ],
   "note": ""
  },
  {
   "property": "C46",
   "status": "partial",
   "theorems": [
    "PNDL.C46_sound_partial",
    "PNDL.C46_maps_back_partial",
    "PNDL.C46_complete_partial",
    "PNDL.C46_violation_zero",
    "PNDL.C46_violation_sign",
    "PNDL.C46_violation_even",
    "PNDL.C46_violation_missed"
   ],
   "note": "False of the code: the inverse keeps spurious roots at mu=0, of the wrong sign, and is an even function of mu (C46_violation_*); soundness, mapping back and completeness proved under stated side conditions."
  },
  {
   "property": "C47",
   "status": "proved",
   "theorems": [
    "PNDL.C47_rotate",
    "PNDL.C47_cosine"
   ],
   "note": ""
  },
  {
   "property": "C48",
   "status": "proved",
   "theorems": [
    "PNDL.C48_collision",
    "PNDL.C48_target_at_rest",
    "PNDL.C48_defined"
   ],
   "note": "Exact collision kinematics over the reals: momentum and energy conservation for every target velocity and CM direction; target-at-rest special case; definedness."
  },
  {
   "property": "C49",
   "status": "partial",
   "theorems": [
    "PNDL.C49_constructed",
    "PNDL.C49_broadener",
    "PNDL.C49_valid_partial",
    "PNDL.C49_null_refused",
    "PNDL.C49_temperature_round_trip",
    "PNDL.C49_violation_threshold",
    "PNDL.C49_violation_temperature",
    "PNDL.C49_violation_hang"
   ],
   "note": "Histories of setters keep the state valid except for the unchecked setters: threshold, temperature (C49_violation_*), and a zero-cross-section DBRC hangs (C49_violation_hang)."
  },
  {
   "property": "C50",
   "status": "partial",
   "theorems": [
    "PNDL.C50_majorant_partial",
    "PNDL.C50_constructed_partial",
    "PNDL.C50_violation_below",
    "PNDL.C50_violation_index",
    "PNDL.C50_violation_grids"
   ],
   "note": "Majorant proved for intervals inside the grid with index 0; false when the interval reaches below the grid (first value missed), and when the cross section starts above the grid's first point (index out of range)."
  },
  {
   "property": "C51",
   "status": "partial",
   "theorems": [
    "PNDL.C51_nearest_partial",
    "PNDL.C51_member",
    "PNDL.C51_violation",
    "PNDL.C51_violation_sorted"
   ],
   "note": "Proved for lists without repeated temperatures (every T); false with a repeated temperature (C51_violation), which a Serpent file with a final newline produces (C54_violation_temperatures)."
  },
  {
   "property": "C52",
   "status": "partial",
   "theorems": [
    "PNDL.C52_found_iff",
    "PNDL.C52_nearest_partial",
    "PNDL.C52_first",
    "PNDL.C52_violation"
   ],
   "note": "Found iff within tolerance is proved; the nearest is selected only when one temperature is within tolerance; otherwise the lowest (C52_first, C52_violation): the code compares temperatures[i] with itself."
  },
  {
   "property": "C53",
   "status": "proved",
   "theorems": [
    "PNDL.C53_read_once",
    "PNDL.C53_same_object",
    "PNDL.C53_distinct",
    "PNDL.C53_failure_no_effect",
    "PNDL.C53_defined",
    "PNDL.C53_shared"
   ],
   "note": "State machine over arbitrary histories with failing reads; also distinctness of objects, sharing of the first loaded distributions, definedness."
  },
  {
   "property": "C54",
   "status": "partial",
   "theorems": [
    "PNDL.C54_each_once_partial",
    "PNDL.C54_with_tail",
    "PNDL.C54_violation",
    "PNDL.C54_violation_temperatures",
    "PNDL.C54_terminates",
    "PNDL.C54_violation_example"
   ],
   "note": "Character-level stream model. Proved without trailing white space; false with a final newline: the last new line is registered twice (C54_violation, for every such file); termination proved for every file."
  },
  {
   "property": "C55",
   "status": "partial",
   "theorems": [
    "PNDL.C55_lookup",
    "PNDL.C55_listed_partial",
    "PNDL.C55_listed_shared_partial",
    "PNDL.C55_violation_shared",
    "PNDL.C55_violation_range"
   ],
   "note": "Look-up proved for every constructible object and every mt against the file's MTs; against mt_list proved except mt=0 of sharing objects, where it is false (C55_violation_shared). MTs above 891 in a file write outside the index array (C55_violation_range)."
  },
  {
   "property": "C56",
   "status": "partial",
   "theorems": [
    "PNDL.C56_list_partial",
    "PNDL.C56_list_general",
    "PNDL.C56_violation_shared",
    "PNDL.C56_violation_nonfissile"
   ],
   "note": "Proved for direct construction of fissile files or files without fission MTs; the sharing constructor inserts one 0 per reaction (C56_violation_shared), and a file without fission data loses its fission MTs (C56_violation_nonfissile)."
  },
  {
   "property": "C57",
   "status": "proved",
   "theorems": [
    "PNDL.C57_balance",
    "PNDL.C57_total",
    "PNDL.C57_evaluate"
   ],
   "note": "Balance, totality, non-negativity, also through the hashed look-up."
  },
  {
   "property": "C58",
   "status": "partial",
   "theorems": [
    "PNDL.C58_accepted",
    "PNDL.C58_absent",
    "PNDL.C58_evaluate_partial",
    "PNDL.C58_band",
    "PNDL.C58_at_node",
    "PNDL.C58_violation_log",
    "PNDL.C58_violation_below",
    "PNDL.C58_two_energies",
    "PNDL.C58_nuclide"
   ],
   "note": "Reader, search (for energies in any order), interpolation and balance proved; false for logarithmic tables with a non-positive energy and for table ranges below the smooth grid."
  },
  {
   "property": "C59",
   "status": "partial",
   "theorems": [
    "PNDL.C59_not_fissile",
    "PNDL.C59_sum_partial",
    "PNDL.C59_violation_first",
    "PNDL.C59_given",
    "PNDL.C59_polynomial",
    "PNDL.C59_table",
    "PNDL.C59_violation_all_three",
    "PNDL.C59_violation_witness"
   ],
   "note": "Consistent unless the file gives total, prompt and delayed nu all three; proved violation in that case (stored as given). What is stored is what the file gives."
  },
  {
   "property": "C60",
   "status": "proved",
   "theorems": [
    "PNDL.C60_sum",
    "PNDL.C60_with_18",
    "PNDL.C60_not_fissile"
   ],
   "note": "Also MT 18 present and non-fissile nuclides. Grid size below 2^32 (the index is stored in 32 bits)."
  },
  {
   "property": "C61",
   "status": "partial",
   "theorems": [
    "PNDL.C61_closed",
    "PNDL.C61_sample",
    "PNDL.C61_probability",
    "PNDL.C61_density_partial",
    "PNDL.C61_violation",
    "PNDL.C61_violation_witness"
   ],
   "note": "Selection probabilities proved (interval lengths are cross-section shares). pdf/angle_pdf use only the first open partial: proved violation; mixture only when one partial is open. Zero total cross section gives 0/0."
  },
  {
   "property": "C62",
   "status": "proved",
   "theorems": [
    "PNDL.C62_construction",
    "PNDL.C62_select",
    "PNDL.C62_last",
    "PNDL.C62_probability",
    "PNDL.C62_pdf",
    "PNDL.C62_pdf_absent"
   ],
   "note": "Construction iff, selection, exact selection probabilities (Lebesgue measure), weighted densities, absence iff."
  },
  {
   "property": "C63",
   "status": "partial",
   "theorems": [
    "PNDL.C63_ea_pdf_partial",
    "PNDL.C63_violation_ea",
    "PNDL.C63_violation_ea_zero",
    "PNDL.C63_violation_ea_sizes",
    "PNDL.C63_ea_sample_partial",
    "PNDL.C63_kalbach_pdf_partial",
    "PNDL.C63_kalbach_value",
    "PNDL.C63_violation_kalbach"
   ],
   "note": "Joint densities defined/non-negative/zero outside for every argument except the highest energy of LinLin tables; violations proved: highest energy, random number 0, unchecked sizes."
  },
  {
   "property": "C64",
   "status": "proved",
   "theorems": [
    "PNDL.C64_formula",
    "PNDL.C64_violation_zero_slope",
    "PNDL.C64_nonneg",
    "PNDL.C64_violation_negative",
    "PNDL.C64_normalised",
    "PNDL.C64_mixture",
    "PNDL.C64_cosine_even",
    "PNDL.C64_cosine_forward",
    "PNDL.C64_cosine_range",
    "PNDL.C64_violation_zero_slope_sample"
   ],
   "note": "Formula, non-negativity, normalisation, exact inversion of both branches' cumulatives, range. Caveats proved: a = 0 is 0/0; R>1 gives negative densities."
  },
  {
   "property": "C65",
   "status": "partial",
   "theorems": [
    "PNDL.C65_read",
    "PNDL.C65_xs_below",
    "PNDL.C65_xs_between",
    "PNDL.C65_xs_above",
    "PNDL.C65_xs_partial",
    "PNDL.C65_violation_first_edge",
    "PNDL.C65_violation_witness",
    "PNDL.C65_sample",
    "PNDL.C65_sample_below",
    "PNDL.C65_edge_probability"
   ],
   "note": "Proved for every energy except the first edge itself; violation there proved. Also the exact edge probabilities and the reading from the file."
  },
  {
   "property": "C66",
   "status": "partial",
   "theorems": [
    "PNDL.C66_smear",
    "PNDL.C66_read",
    "PNDL.C66_sample_partial",
    "PNDL.C66_violation_single"
   ],
   "note": "Smearing, reading and sampling proved with at least two incoming energies; a single one reads out of range (violation proved)."
  },
  {
   "property": "C67",
   "status": "proved",
   "theorems": [
    "PNDL.C67_bracket",
    "PNDL.C67_neighbours",
    "PNDL.C67_single"
   ],
   "note": "Index, weight and neighbour characterisation; single-energy grids proved out of range."
  },
  {
   "property": "C68",
   "status": "proved",
   "theorems": [
    "PNDL.C68_wrap_safe",
    "PNDL.C68_short_unchanged",
    "PNDL.C68_earlier_messages_kept",
    "PNDL.C68_every_message_present",
    "PNDL.C68_character_lost"
   ],
   "note": ""
  },
  {
   "property": "C69",
   "status": "partial",
   "theorems": [
    "PNDL.C69_evaporation",
    "PNDL.C69_watt",
    "PNDL.C69_maxwell_partial",
    "PNDL.C69_violation_maxwell",
    "PNDL.C69_violation_maxwell_negative"
   ],
   "note": "Evaporation and Watt proved normalised. Maxwellian: exact integral proved; normalised iff E-U = T (code uses erf(x) for erf(sqrt x)); negative density proved for (E-U)/T <= 1/4."
  },
  {
   "property": "C70",
   "status": "proved",
   "theorems": [
    "PNDL.C70_normalised"
   ],
   "note": "n = 3, 4, 5, via substitution; Emax > 0 needed for the density to exist."
  },
  {
   "property": "C71",
   "status": "partial",
   "theorems": [
    "PNDL.C71_one_cosine",
    "PNDL.C71_symmetrised_partial",
    "PNDL.C71_violation_overcount",
    "PNDL.C71_violation_even",
    "PNDL.C71_violation_absent",
    "PNDL.C71_violation_negative",
    "PNDL.C71_joint",
    "PNDL.C71_sample"
   ],
   "note": "For 0<=g<1 the value is lab density at mu plus that at -mu (proved, hence over-reported); violations proved: even in mu, negative for g>1, absent density reported as 0. Joint density and sampling proved."
  },
  {
   "property": "C72",
   "status": "proved",
   "theorems": [
    "PNDL.C72_angle_from_Q",
    "PNDL.C72_speed_ratio",
    "PNDL.C72_angle_from_energy",
    "PNDL.C72_map",
    "PNDL.C72_joint"
   ],
   "note": "Derivative / determinant identities via HasDerivAt; regular points only (singular directions excluded by hypotheses)."
  },
  {
   "property": "C73",
   "status": "proved",
   "theorems": [
    "PNDL.C73_accept_range",
    "PNDL.C73_sample",
    "PNDL.C73_dbrc",
    "PNDL.C73_dbrc_probability"
   ],
   "note": "Acceptance in [0,1], the law of the returned velocity, DBRC window and acceptance against the majorant (window at or above the first grid energy; below it see C50)."
  },
  {
   "property": "C74",
   "status": "proved",
   "theorems": [
    "PNDL.C74_make_throws",
    "PNDL.C74_energy",
    "PNDL.C74_threshold"
   ],
   "note": "Energy balance, threshold and construction."
  },
  {
   "property": "C75",
   "status": "proved",
   "theorems": [
    "PNDL.C75_shared"
   ],
   "note": "Proved for every constructible object."
  },
  {
   "property": "C76",
   "status": "proved",
   "theorems": [
    "PNDL.C76_read",
    "PNDL.C76_read_next",
    "PNDL.C76_unknown_law_accepted"
   ],
   "note": "Caveat theorem: an unknown interpolation number is silently a histogram."
  },
  {
   "property": "C77",
   "status": "proved",
   "theorems": [
    "PNDL.C77_families",
    "PNDL.C77_law",
    "PNDL.C77_none"
   ],
   "note": ""
  },
  {
   "property": "C78",
   "status": "proved",
   "theorems": [
    "PNDL.C78_constant",
    "PNDL.C78_table"
   ],
   "note": ""
  },
  {
   "property": "C79",
   "status": "proved",
   "theorems": [
    "PNDL.C79_chain",
    "PNDL.C79_cycle_diverges"
   ],
   "note": "Caveat theorem: a cyclic chain never terminates."
  },
  {
   "property": "C80",
   "status": "partial",
   "theorems": [
    "PNDL.C80_temperature_law",
    "PNDL.C80_watt",
    "PNDL.C80_level",
    "PNDL.C80_violation_bounds",
    "PNDL.C80_violation_rejected"
   ],
   "note": "Violation proved: GeneralEvaporation reads its bounds one place early and rejects every law starting at zero; the other laws proved."
  },
  {
   "property": "C81",
   "status": "proved",
   "theorems": [
    "PNDL.C81_ea_marginal",
    "PNDL.C81_ea_normalised",
    "PNDL.C81_kalbach_marginal",
    "PNDL.C81_kalbach_normalised",
    "PNDL.C81_kalbach_nonneg"
   ],
   "note": "Kalbach: slopes non-zero; EnergyAngleTable: sizes match (the constructors from vectors do not check it, see C63)."
  },
  {
   "property": "C82",
   "status": "partial",
   "theorems": [
    "PNDL.C82_parameters",
    "PNDL.C82_kalbach_partial",
    "PNDL.C82_tabular_partial"
   ],
   "note": "Proved for usable tables; violations: zero slopes, random number 0 for EnergyAngleTable, inconsistent tables."
  },
  {
   "property": "C83",
   "status": "partial",
   "theorems": [
    "PNDL.C83_mass",
    "PNDL.C83_normalised_partial",
    "PNDL.C83_violation",
    "PNDL.C83_kalbach_mass",
    "PNDL.C83_angle_mass",
    "PNDL.C83_kalbach_iff",
    "PNDL.C83_angle_iff"
   ],
   "note": "Exact value of the integral proved for TabularEnergy (C83_mass), Kalbach (C83_kalbach_mass) and TabularEnergyAngle (C83_angle_mass). For TabularEnergy it is 1 iff the tables have the same width or only one counts (C83_normalised_partial, C83_violation); for the joint densities it equals angle_pdf strictly between tables of different widths iff the angular densities are in proportion to the widths (C83_kalbach_iff, C83_angle_iff). Missing: the remaining cases, where the claim is false (missing Jacobian)."
  },
  {
   "property": "C84",
   "status": "partial",
   "theorems": [
    "PNDL.C84_violation",
    "PNDL.C84_histogram_partial"
   ],
   "note": "False of the code for LinLin: violation proved for a whole interval of random numbers; proved for histogram tables."
  },
  {
   "property": "C85",
   "status": "partial",
   "theorems": [
    "PNDL.C85_read",
    "PNDL.C85_pick_uniform",
    "PNDL.C85_pick_skewed",
    "PNDL.C85_sample_partial",
    "PNDL.C85_violation_empty"
   ],
   "note": "Well-formedness, file layout, selection probabilities and ranges proved for non-empty tables; a file with no outgoing energies is accepted and sampling reads out of range (violation proved)."
  },
  {
   "property": "C86",
   "status": "partial",
   "theorems": [
    "PNDL.C86_read",
    "PNDL.C86_inverts_partial",
    "PNDL.C86_unit_partial",
    "PNDL.C86_plain_partial",
    "PNDL.C86_plain_nonneg_partial",
    "PNDL.C86_violation_negative",
    "PNDL.C86_violation_negative_witness",
    "PNDL.C86_violation_single",
    "PNDL.C86_violation_flat_start",
    "PNDL.C86_violation_flat_start_witness"
   ],
   "note": "Reading proved in full (with the added zero point); sampling proved for usable tables; violations: negative energies below half the lowest incoming energy (for every law), one-point tables, flat start of the cumulative."
  },
  {
   "property": "C87",
   "status": "partial",
   "theorems": [
    "PNDL.C87_flags",
    "PNDL.C87_absent",
    "PNDL.C87_total",
    "PNDL.C87_inelastic",
    "PNDL.C87_parts_valid",
    "PNDL.C87_violation_mode",
    "PNDL.C87_example"
   ],
   "note": "Flags, total, absent parts, layout, well-formedness proved for every accepted file; that every file is accepted or refused is false: mode 4 without an elastic block is undefined behaviour (violation proved)."
  },
  {
   "property": "C88",
   "status": "proved",
   "theorems": [
    "PNDL.C88_element",
    "PNDL.C88_isotope_lt",
    "PNDL.C88_isotope",
    "PNDL.C88_nuclide_lt",
    "PNDL.C88_nuclide",
    "PNDL.C88_hash",
    "PNDL.C88_nuclide_numeric"
   ],
   "note": "Added after seeded bug M012 (isomer level dropped from Nuclide::operator<) survived."
  },
  {
   "property": "C89",
   "status": "partial",
   "theorems": [
    "PNDL.C89_exact",
    "PNDL.C89_exact_new",
    "PNDL.C89_exact_comments",
    "PNDL.C89_short_partial",
    "PNDL.C89_violation_short",
    "PNDL.C89_violation_garbage",
    "PNDL.C89_violation_missing_E",
    "PNDL.C89_violation_integer",
    "PNDL.C89_negative",
    "PNDL.C89_violation_truncated",
    "PNDL.C89_violation_line"
   ],
   "note": "Exact reading proved for all three header forms and every well-formed numeral. Refusal holds only when two or more numbers are missing or the file ends with its last number; proved violations: one number missing before a final newline is accepted with a 0, a non-number is accepted and everything from there on is 0, a non-integer among NXS and JXS is accepted and makes the whole of XSS 0 (added after R004 and R015 survived), a missing E is accepted and shifts the array, truncated IZAW uses uninitialised variables, a short second line of a 2.0 header is read out of range."
  },
  {
   "property": "C90",
   "status": "partial",
   "theorems": [
    "PNDL.C90_neutron_partial",
    "PNDL.C90_list_partial",
    "PNDL.C90_violation_neutron",
    "PNDL.C90_tsl_partial",
    "PNDL.C90_violation_tsl",
    "PNDL.C90_violation_tsl_other"
   ],
   "note": "Proved for every ZAID whose decoded isomer level is at most 2 and for every thermal name of 1-6 word characters. Violations proved: ZAID 1601 is listed as H1m3 which is refused; thermal names longer than six characters are cut, so they are never found or another law is found."
  },
  {
   "property": "C91",
   "status": "partial",
   "theorems": [
    "PNDL.C91_rows",
    "PNDL.C91_continued",
    "PNDL.C91_registered_partial",
    "PNDL.C91_violation_extension",
    "PNDL.C91_violation_columns",
    "PNDL.C91_violation_duplicate"
   ],
   "note": "Registration proved for all layouts with 10-11 columns, continuation lines included. Violations proved: entries with 7-9 columns pass the check and then abort the construction on an empty temperature; an entry listed twice is registered twice, which makes nearest_temperature answer wrongly (C51); of an extension longer than five characters only five are removed (C91_registered_partial restated on the name itself after R044 survived). The rest of the file: C124."
  },
  {
   "property": "C92",
   "status": "partial",
   "theorems": [
    "PNDL.C92_read",
    "PNDL.C92_unsorted",
    "PNDL.C92_isotropic",
    "PNDL.C92_violation_empty"
   ],
   "note": "Proved for all well-formed records with sorted or unsorted energies. Violation proved: a record with no energies is accepted and every later use is undefined behaviour."
  },
  {
   "property": "C93",
   "status": "partial",
   "theorems": [
    "PNDL.C93_bins",
    "PNDL.C93_tabular_partial",
    "PNDL.C93_violation_unsorted",
    "PNDL.C93_nbody",
    "PNDL.C93_photon"
   ],
   "note": "Bins, N-body and photons: full equality with the public constructors. Tabular: equality for ordered incident energies; violation proved: unordered incident energies, refused by the public constructor, are accepted from a file."
  },
  {
   "property": "C94",
   "status": "partial",
   "theorems": [
    "PNDL.C94_kalbach",
    "PNDL.C94_unsorted",
    "PNDL.C94_correlated_partial",
    "PNDL.C94_violation_isotropic"
   ],
   "note": "Kalbach: full. Correlated tables: equality when no angular table is given as isotropic; violation proved: an angular locator of 0 (isotropic) is not recognised, the reader decodes the number before the block as a table head."
  },
  {
   "property": "C95",
   "status": "partial",
   "theorems": [
    "Spec.C95_bins_partial",
    "Spec.C95_evaporation_partial",
    "Spec.C95_violation_repeated"
   ],
   "note": "Proved for strictly increasing bounds. Violation proved: repeated bounds pass the constructor and give a density that is not a number."
  },
  {
   "property": "C96",
   "status": "proved",
   "theorems": [
    "PNDL.C96_construct",
    "PNDL.C96_sample",
    "PNDL.C96_product",
    "PNDL.C96_marginal",
    "PNDL.C96_normalised"
   ],
   "note": "Construction, sampling, product, marginal and normalisation, for all factors."
  },
  {
   "property": "C97",
   "status": "partial",
   "theorems": [
    "PNDL.C97_law",
    "PNDL.C97_refused",
    "PNDL.C97_chain",
    "PNDL.C97_reaction",
    "PNDL.C97_absorption",
    "PNDL.C97_threshold",
    "PNDL.C97_frame",
    "PNDL.C97_violation_fission_yield",
    "PNDL.C97_arguments"
   ],
   "note": "Assembly proved as an equivalence for all well-formed chains; TYR = 0; threshold; frame. Violation proved: for fission (TYR = +-19) the reported yield is 19 neutrons."
  },
  {
   "property": "C98",
   "status": "proved",
   "theorems": [
    "PNDL.C98_accept",
    "PNDL.C98_sample"
   ],
   "note": "Acceptance is an equivalence; sampling exact."
  },
  {
   "property": "C99",
   "status": "proved",
   "theorems": [
    "PNDL.C99_columns",
    "PNDL.C99_reactions",
    "PNDL.C99_list",
    "PNDL.C99_photon",
    "PNDL.C99_elastic",
    "PNDL.C99_fission",
    "PNDL.C99_delayed",
    "PNDL.C99_urr"
   ],
   "note": "Full constructor from the XSS array. Distributions of the individual laws: C92-C97. Laws of the delayed families by their numbers: C99_delayed (added after R060 survived)."
  },
  {
   "property": "C100",
   "status": "proved",
   "theorems": [
    "PNDL.C100_reactions",
    "PNDL.C100_members"
   ],
   "note": "The MT comparison in Reaction(ace, indx, egrid, reac) can never fail and ZAIDs are not compared, so the other nuclide may be a different one (C102_shared asks for nothing of the kind)."
  },
  {
   "property": "C101",
   "status": "proved",
   "theorems": [
    "PNDL.C101_grid",
    "PNDL.C101_evaluate"
   ],
   "note": ""
  },
  {
   "property": "C102",
   "status": "proved",
   "theorems": [
    "Spec.C102_contents",
    "Spec.C102_accept",
    "Spec.C102_shared",
    "Spec.C102_shared_needs",
    "Spec.C102_shared_iff",
    "Spec.C102_shared_mismatch"
   ],
   "note": "If and only if for the direct constructor (C102_accept) and for sharing (C102_shared_iff, when file and nuclide agree on being fissile); sharing accepts negative temperatures, and a non-fissile file can never share with a fissile nuclide (C102_shared_mismatch)."
  },
  {
   "property": "C103",
   "status": "partial",
   "theorems": [
    "PNDL.C103_evaporation",
    "PNDL.C103_maxwell_partial",
    "PNDL.C103_violation_maxwell",
    "PNDL.C103_watt"
   ],
   "note": "Proved for Evaporation and Watt. The Maxwellian samples sqrt(e) exp(-e/T) truncated and normalised (C103_maxwell_partial), which is what it reports if and only if E - U = T (C103_violation_maxwell), because the reported normalisation uses erf(x) for erf(sqrt x)."
  },
  {
   "property": "C104",
   "status": "proved",
   "theorems": [
    "PNDL.C104_nbody"
   ],
   "note": "Random numbers are independent and uniform on [0,1] (Measure.infinitePi)."
  },
  {
   "property": "C105",
   "status": "partial",
   "theorems": [
    "PNDL.C105_samples_partial",
    "PNDL.C105_iff",
    "PNDL.C105_low_order",
    "PNDL.C105_linear",
    "PNDL.C105_violation_negative"
   ],
   "note": "For every object that can be built, sampling follows pdf if and only if pdf is nowhere negative and nowhere above the bound found on 2001 cosines (C105_iff); this is so for every non-negative density of up to five moments (C105_low_order) and for every accepted linear one (C105_linear). False in general: accepted densities can be negative between the 2001 cosines (C105_violation_negative)."
  },
  {
   "property": "C106",
   "status": "proved",
   "theorems": [
    "PNDL.C106_read",
    "PNDL.C106_refuse",
    "PNDL.C106_absent"
   ],
   "note": "Blocks with no bands (np = 0) are excluded: cdf[0] of an empty vector is undefined behaviour (the model says so)."
  },
  {
   "property": "C107",
   "status": "partial",
   "theorems": [
    "PNDL.C107_listed_partial",
    "PNDL.C107_violation_isomer",
    "PNDL.C107_violation_example"
   ],
   "note": "Proved for files without isomers that do not end in white space (C107_listed_partial). The isomeric state column is read and ignored: the tables of Am242m1 are listed as tables of Am242 and none is listed for Am242m1 (C107_violation_isomer, C107_violation_example). Number conversions are abstract."
  },
  {
   "property": "C108",
   "status": "partial",
   "theorems": [
    "PNDL.C108_samples_partial",
    "PNDL.C108_violation"
   ],
   "note": "The constructor accepts tables whose density does not belong to their cumulative values; those are sampled from another law (C108_violation: values outside the table with probability at least 1/4)."
  },
  {
   "property": "C109",
   "status": "partial",
   "theorems": [
    "PNDL.C109_samples_partial",
    "PNDL.C109_violation_bins"
   ],
   "note": "Sound laws: isotropic; consistent tables within [-1, 1]; Legendre expansions that are nowhere negative and nowhere above the sampling bound (C105 says when). Equiprobable bins are not sampled from the density they report because of the factor 33 and the missing bin width (C109_violation_bins: 32 bins of equal width; C161_violation_iff: every set of bins except those of width 1/33)."
  },
  {
   "property": "C110",
   "status": "partial",
   "theorems": [
    "PNDL.C110_law",
    "PNDL.C110_iff",
    "PNDL.C110_samples_partial",
    "PNDL.C110_violation"
   ],
   "note": "The exact law of the sampled energies is proved for consistent tables (C110_law): the densities of the two tables carried to the interpolated window with their Jacobians. It is the reported one if and only if one table alone counts or both have the same width (C110_iff), because pdf leaves the Jacobian out; C110_violation is a concrete case."
  },
  {
   "property": "C111",
   "status": "partial",
   "theorems": [
    "PNDL.C111_samples_partial",
    "PNDL.C111_violation_maxwell"
   ],
   "note": "Proved for sound angular laws (C109) with evaporation and Watt spectra and with tables of equal width (C111_samples_partial). C111_violation_maxwell: with a Maxwellian the reported joint density is not the one sampled. Tables of different widths: C110_violation."
  },
  {
   "property": "C112",
   "status": "partial",
   "theorems": [
    "PNDL.C112_iff",
    "PNDL.C112_reaction_partial",
    "PNDL.C112_violation",
    "PNDL.C112_fission",
    "PNDL.C112_violation_fission"
   ],
   "note": "C112_iff: with faithful components the mixture is sampled as reported if and only if the weights add up to one at this energy (nothing checks it; C112_violation). C112_reaction_partial: reactions in the laboratory frame with uncorrelated and N-body laws; Kalbach and tabulated energy-angle laws and the centre of mass frame are missing. C112_fission: SummedFissionSpectrum samples the right mixture, and does not report it (C112_violation_fission)."
  },
  {
   "property": "C113",
   "status": "partial",
   "theorems": [
    "PNDL.C113_law",
    "PNDL.C113_iff",
    "PNDL.C113_samples_partial",
    "PNDL.C113_violation_widths",
    "PNDL.C113_violation"
   ],
   "note": "C113_law gives the law of the samples for all consistent tables, histogram or linear. C113_iff: for histogram tables it is the reported density if and only if only one table counts or both have the same width. C113_violation: for linearly interpolated tables the reported density is a different one; C113_violation_widths: so it is between tables of different widths."
  },
  {
   "property": "C114",
   "status": "partial",
   "theorems": [
    "PNDL.C114_table",
    "PNDL.C114_law",
    "PNDL.C114_iff",
    "PNDL.C114_samples_partial",
    "PNDL.C114_violation_widths",
    "PNDL.C114_violation"
   ],
   "note": "C114_table and C114_law give the law of the samples for all consistent tables, histogram or linear. C114_iff: for histogram tables it is the reported density if and only if only one table counts or both have the same width. C114_violation: for linear tables cosines of reported density zero are sampled half of the time; C114_violation_widths: between tables of different widths."
  },
  {
   "property": "C115",
   "status": "partial",
   "theorems": [
    "PNDL.C115_cell",
    "PNDL.C115_value",
    "PNDL.C115_mean",
    "PNDL.C115_node",
    "PNDL.C115_violation_node"
   ],
   "note": "Values and mean proved; at a tabulated energy the table's band is proved for linear interpolation. C115_violation_node proves it is lost for log-log tables when the next table's band is zero."
  },
  {
   "property": "C116",
   "status": "partial",
   "theorems": [
    "PNDL.C116_accepts",
    "PNDL.C116_read",
    "PNDL.C116_violation_negative"
   ],
   "note": "Acceptance (iff) and contents proved for every layout; C116_violation_negative proves that a negative inelastic cross section is accepted and returned."
  },
  {
   "property": "C117",
   "status": "proved",
   "theorems": [
    "PNDL.C117_law"
   ],
   "note": "Change of variables with the Jacobian of C72; the region is stated exactly. The angular density angle_pdf of the same class is wrong (C71)."
  },
  {
   "property": "C118",
   "status": "partial",
   "theorems": [
    "PNDL.C118_lab_partial",
    "PNDL.C118_cm_partial",
    "PNDL.C118_below",
    "PNDL.C118_violation"
   ],
   "note": "Holds for laws sharing a window of energies, weights summing to one, consistent tables (histogram in the joint laws), at grid energies or between tables of equal width; elsewhere the code violates it (C103, C110, C112, C113, C114, C118_violation)."
  },
  {
   "property": "C119",
   "status": "proved",
   "theorems": [
    "PNDL.C119_svt",
    "PNDL.C119_mass"
   ],
   "note": "Law of the rejection loop under independent uniform draws, over exact reals."
  },
  {
   "property": "C120",
   "status": "partial",
   "theorems": [
    "PNDL.C120_dbrc_partial",
    "PNDL.C120_zero",
    "PNDL.C120_violation_below"
   ],
   "note": "Proved for cross sections on a strictly increasing positive grid with values from the first grid point, when the window starts within the grid and the cross section is positive on an interval of it. Missing: windows reaching below the grid, where the code draws another law (C120_violation_below: velocities are kept where the cross section is zero), and cross sections starting above the first grid point (undefined behaviour, C50_violation_index)."
  },
  {
   "property": "C121",
   "status": "partial",
   "theorems": [
    "PNDL.C121_violation_bins",
    "PNDL.C121_energy_partial",
    "PNDL.C121_joint_partial",
    "PNDL.C121_isotropic"
   ],
   "note": "Proved for angular distributions on a sorted grid of energies whose laws draw the density they report (isotropic, Legendre and tables with the supported rules, as for C109); the isotropic case is proved without further assumption. Missing: equiprobable-bin laws, which draw another density than they report (C161_violation_iff, C121_violation_bins); the law actually drawn is C161_elastic_rest_partial."
  },
  {
   "property": "C122",
   "status": "partial",
   "theorems": [
    "PNDL.C122_free_gas_partial",
    "PNDL.C122_dbrc_partial"
   ],
   "note": "Proved for angular distributions whose laws draw the density they report (as for C121) and, for ElasticDBRC, under the conditions of C120. Missing: equiprobable-bin angular laws, which draw another density than they report (C161_violation_iff; law actually drawn: C161_elastic_gas_partial), and the windows excluded in C120."
  },
  {
   "property": "C123",
   "status": "proved",
   "theorems": [
    "PNDL.C123_balance",
    "PNDL.C123_certain",
    "PNDL.C123_equilibrium",
    "PNDL.C123_finite"
   ],
   "note": "Over exact reals and independent uniform draws; the target-at-rest approximation switched off. C123_finite shows the rates compared are finite, C123_certain that the call returns with probability one."
  },
  {
   "property": "C124",
   "status": "partial",
   "theorems": [
    "Spec.C124_read_partial",
    "Spec.C124_ratio",
    "Spec.C124_below",
    "Spec.C124_refused",
    "Spec.C124_violation_exponent",
    "Spec.C124_violation_integer",
    "Spec.C124_violation_directory",
    "Spec.C124_violation_datapath",
    "Spec.C124_violation_directory_example"
   ],
   "note": "Proved for files in which the three key words first occur at their places, with ratios written with a point and no exponent and a path without the word 'datapath'. Violations proved: a ratio with an exponent is read without it and ends the list; a ratio without a point or a ZAID of other than 4-6 digits ends the list silently; the word 'directory' in the data path (or anywhere before) makes the construction fail; the word 'datapath' inside the path is cut out of it. Characters beyond ASCII in the path are not modelled."
  },
  {
   "property": "C125",
   "status": "partial",
   "theorems": [
    "PNDL.C125_coherent",
    "PNDL.C125_incoherent_partial",
    "PNDL.C125_discrete_partial",
    "PNDL.C125_weights"
   ],
   "note": "Proved for tables with at least two energies (incoherent elastic) and for non-empty tables (discrete inelastic), and for structure factors that do not decrease. Missing: tables the constructors accept but the samplers read out of range, violations C66_violation_single and C85_violation_empty. Rounding is not modelled."
  },
  {
   "property": "C126",
   "status": "partial",
   "theorems": [
    "PNDL.C126_plain_partial",
    "PNDL.C126_unit_partial",
    "PNDL.C126_violation_added"
   ],
   "note": "Proved for tables with at least two energies whose tabulated cumulative is the integral of the tabulated density. Missing: other tables the constructor accepts; C126_violation_added shows that the entry the constructor itself adds when the cumulative starts above zero breaks this and makes the sampler leave the tabulated energies."
  },
  {
   "property": "C127",
   "status": "partial",
   "theorems": [
    "PNDL.C127_bins_partial",
    "PNDL.C127_evaporation_partial",
    "PNDL.C127_violation",
    "PNDL.C127_violation_evaporation"
   ],
   "note": "The energies that are returned follow the reported density exactly: every event has 1 - 1/n times its probability, n being the number of bounds. Missing: the remaining share 1/n of the calls, which read past the end of the bounds (C127_violation, C127_violation_evaporation)."
  },
  {
   "property": "C128",
   "status": "proved",
   "theorems": [
    "PNDL.C128_interpolation",
    "PNDL.C128_monotone",
    "PNDL.C128_cross_section",
    "PNDL.C128_above_neighbours",
    "PNDL.C128_exact"
   ],
   "note": "C128_above_neighbours shows that the two roundings are needed: under ties-to-even the computed value can be above both neighbouring values by an ulp."
  },
  {
   "property": "C129",
   "status": "proved",
   "theorems": [
    "PNDL.C129_index",
    "PNDL.C129_entry",
    "PNDL.C129_close",
    "PNDL.C129_skewed",
    "PNDL.C129_skewed_last",
    "PNDL.C129_rng"
   ],
   "note": "C129_skewed_last shows that the skewed draw can reach an index that exact arithmetic never draws that way."
  },
  {
   "property": "C130",
   "status": "partial",
   "theorems": [
    "PNDL.C130_exact",
    "PNDL.C130_exact_index",
    "PNDL.C130_away_partial",
    "PNDL.C130_violation"
   ],
   "note": "Proved for every energy with no other grid energy within a relative distance of about (4 NBINS + 12) delta (4e-9 for the default 8192 bins and a correctly rounded library). Missing: energies closer than that to a grid energy; C130_violation proves that the code reads past the end of the bin table for some energies just below the top of the grid, with any library accurate to 1/8."
  },
  {
   "property": "C131",
   "status": "partial",
   "theorems": [
    "PNDL.C131_exact",
    "PNDL.C131_cosine_partial",
    "PNDL.C131_violation"
   ],
   "note": "Proved with no hypothesis on the inputs for every returned energy above 2^-998 MeV. Missing: a neutron that is stopped; C131_violation: exact backscattering by a proton at rest divides zero by zero."
  },
  {
   "property": "C132",
   "status": "partial",
   "theorems": [
    "PNDL.C132_exact",
    "PNDL.C132_forward_partial",
    "PNDL.C132_violation_cosine",
    "PNDL.C132_violation_energy"
   ],
   "note": "Proved for forward emission in the centre of mass: energy and cosine are within a relative 2^-49 of the exact ones, so the cosine is at most 1 + 2^-49. Missing: cosine <= 1 (C132_violation_cosine: 1 + 2^-52 is returned, there is no clamp) and backward emission (C132_violation_energy: a negative energy and a NaN cosine where the exact energy is positive)."
  },
  {
   "property": "C133",
   "status": "partial",
   "theorems": [
    "PNDL.C133_exact",
    "PNDL.C133_lower",
    "PNDL.C133_accuracy_partial",
    "PNDL.C133_violation_range",
    "PNDL.C133_violation_collapse"
   ],
   "note": "Proved for all tables: never below the lower end of the cell (C133_lower). Proved with an explicit tolerance: C133_accuracy_partial, a few units in the last place for constant densities and 2^-47 max(p)^2/min(p) W/|p1-p0| for linear ones. Missing: a bound that does not blow up as p1 tends to p0, which is false of the code (C133_violation_range: twice max_value() is returned; C133_violation_collapse: a density uniform up to its last bit returns only its two end points)."
  },
  {
   "property": "C134",
   "status": "partial",
   "theorems": [
    "PNDL.C134_in_sequence",
    "PNDL.C134_serial_partial",
    "PNDL.C134_violation_replay"
   ],
   "note": "Proved for all schedules: the j-th number handed out is among the first j+1 numbers of the single-threaded sequence (C134_in_sequence). Proved for calls that do not overlap: exactly that sequence, whichever threads call (C134_serial_partial). Missing: overlapping calls, where the claim is false of the code (C134_violation_replay: a thread delayed inside rng() while another draws n numbers gets a number handed out already and makes the other draw its last n-1 numbers again; n arbitrary). Reads and writes of the state are atomic steps in the model; C++ gives racing accesses no meaning."
  },
  {
   "property": "C135",
   "status": "partial",
   "theorems": [
    "PNDL.C135_right_table",
    "PNDL.C135_serial_partial",
    "PNDL.C135_violation"
   ],
   "note": "Proved for all schedules: no load reads out of range, data comes from the selected table, one object never stands for two tables (C135_right_table). Proved for loads that do not overlap: outcome, library and order are those of one thread, and no table is read twice (C135_serial_partial). Missing: sharing under overlap, false of the code (C135_violation: two threads read the same table twice and hold different objects)."
  },
  {
   "property": "C136",
   "status": "partial",
   "theorems": [
    "PNDL.C136_safe_partial",
    "PNDL.C136_nuclide_partial",
    "PNDL.C136_elastic_partial",
    "PNDL.C136_delayed_partial",
    "PNDL.C136_violation_empty",
    "PNDL.C136_violation_zero",
    "PNDL.C136_hypotheses"
   ],
   "note": "Proved for every file, reaction, energy and stream, with the conditions the constructors do not check as hypotheses: at least one (or two) incident energies per law, cumulatives that do not begin above 0, breakpoints that cover the table, and equiprobable-bin draws below the last bin (C136_safe_partial, C136_nuclide_partial for any chain of sharing, C136_elastic_partial, C136_delayed_partial). Missing: files without these conditions, for which the claim is false: an empty angular table is accepted and sampled out of range at every energy (C136_violation_empty); with law 61 the random number 0 reads before the table, for every file (C136_violation_zero); equiprobable bins are C40. A sample that meets a non-finite value ends in the model; the only sampler that uses a computed value as a search key is Kalbach's, for which C141 settles what happens after one."
  },
  {
   "property": "C137",
   "status": "proved",
   "theorems": [
    "PNDL.C137_reaction",
    "PNDL.C137_nuclide",
    "PNDL.C137_elastic"
   ],
   "note": "C137_reaction for every reaction of every file with positive weight ratio; C137_nuclide for every reaction of every nuclide that can be constructed, through any chain of sharing (the weight ratio is then positive by construction); C137_elastic for the elastic angle. Exact arithmetic."
  },
  {
   "property": "C138",
   "status": "partial",
   "theorems": [
    "PNDL.C138_safe_partial",
    "PNDL.C138_violation_single",
    "PNDL.C138_hypotheses"
   ],
   "note": "Proved for every file, energy and stream with the conditions the constructor does not check as hypotheses: two incoming energies, two outgoing energies per table, at least one cosine (C138_safe_partial). Missing: files without them, for which the claim is false: a table with one outgoing energy is accepted and read out of range by every sample (C138_violation_single), likewise one incoming energy of the incoherent elastic part (C66_violation_single)."
  },
  {
   "property": "C139",
   "status": "proved",
   "theorems": [
    "PNDL.C139_coherent",
    "PNDL.C139_incoherent",
    "PNDL.C139_inelastic"
   ],
   "note": "C139_coherent, C139_incoherent, C139_inelastic: no condition on the file beyond being accepted. Exact arithmetic."
  },
  {
   "property": "C140",
   "status": "partial",
   "theorems": [
    "PNDL.C140_extends",
    "PNDL.C140_tabular",
    "PNDL.C140_kalbach",
    "PNDL.C140_angle",
    "PNDL.C140_covers",
    "PNDL.C140_violation",
    "PNDL.C140_violation_kalbach",
    "PNDL.C140_arithmetic",
    "PNDL.C140_special"
   ],
   "note": "The densities are modelled a second time over numbers with infinities and NaN (Model/Ieee; C140_extends: it continues the plain model). Exact characterisation for every law and argument: the access leaves the tables iff the interpolated window is one point (C140_tabular), or, for the correlated laws, also at the upper end of the window of a linearly interpolated table with a single highest energy (C140_kalbach, C140_angle); in all other cases there is a value. C140_covers: every incoming energy is covered. Missing: those cases, where the claim is false (C140_violation, C140_violation_kalbach). The domain is exact arithmetic with finite arguments: no rounding, overflow, or NaN arguments. C140_arithmetic, C140_special: the arithmetic of the special values is that of IEEE 754, stated with the extended real numbers."
  },
  {
   "property": "C141",
   "status": "partial",
   "theorems": [
    "PNDL.C141_extends",
    "PNDL.C141_exact",
    "PNDL.C141_safe_partial",
    "PNDL.C141_violation",
    "PNDL.C141_limit",
    "PNDL.C141_cosine"
   ],
   "note": "Exact characterisation: the access leaves the table iff it is interpolated linearly and the second random number falls in a step of the cumulative at a repeated energy where the density rises (C141_exact); otherwise a value is returned and four numbers are consumed. C141_extends: continues the plain model. C141_safe_partial: tables without such a step are safe for every stream. Missing: tables with such a step, where the claim is false (C141_violation: a quarter of all streams). Exact arithmetic. C141_cosine: a returned cosine is NaN or in [-1, 1]; C141_limit: the limiting itself."
  },
  {
   "property": "C142",
   "status": "partial",
   "theorems": [
    "PNDL.C142_reaction_partial",
    "PNDL.C142_cm",
    "PNDL.C142_nuclide_partial",
    "PNDL.C142_delayed_partial",
    "PNDL.C142_violation"
   ],
   "note": "Proved for every constructor of every law, given that lab-frame data hold no negative energies (Spec.NonnegDist), which the constructors do not check: C142_violation is an accepted file whose level law in the lab frame returns a negative energy for every stream below its offset. C142_cm needs no condition at all."
  },
  {
   "property": "C143",
   "status": "partial",
   "theorems": [
    "PNDL.C143_reaction_partial",
    "PNDL.C143_nuclide_partial",
    "PNDL.C143_delayed_partial",
    "PNDL.C143_violation"
   ],
   "note": "Proved under Spec.TotalDist (two incident energies to interpolate between, tables evaluable at E, covered cumulatives, positive Kalbach slopes, non-negative energies in CM data), which the constructors do not check. C143_violation: an accepted level reaction in the CM frame, sampled below its offset, takes the square root of a negative number for every stream."
  },
  {
   "property": "C144",
   "status": "proved",
   "theorems": [
    "PNDL.C144_returning",
    "PNDL.C144_any_angle",
    "PNDL.C144_any_energy",
    "PNDL.C144_any_reaction",
    "PNDL.C144_any_elastic",
    "PNDL.C144_any_dbrc",
    "PNDL.C144_any_thermal",
    "PNDL.C144_law",
    "PNDL.C144_angle",
    "PNDL.C144_energy",
    "PNDL.C144_lab",
    "PNDL.C144_cm",
    "PNDL.C144_rest",
    "PNDL.C144_free_gas",
    "PNDL.C144_dbrc",
    "PNDL.C144_velocity",
    "PNDL.C144_coherent",
    "PNDL.C144_incoherent",
    "PNDL.C144_discrete",
    "PNDL.C144_continuous"
   ],
   "note": "C144_any_* and C144_returning: any data, one law per sampling method (of mass the probability that a call returns). The law is the one with the reported density for the data of C103-C126 (C144_angle ... C144_continuous); for other data the samples are independent but their law may differ from the reported one (e.g. C109_violation_bins)."
  },
  {
   "property": "C145",
   "status": "partial",
   "theorems": [
    "PNDL.C145_status",
    "PNDL.C145_reaction_partial",
    "PNDL.C145_refused",
    "PNDL.C145_unreadable",
    "PNDL.C145_elastic",
    "PNDL.C145_thermal",
    "PNDL.C145_lab_partial",
    "PNDL.C145_cm_partial",
    "PNDL.C145_violation"
   ],
   "note": "Proved for reactions that emit neutrons and for the elastic and thermal modes; C145_violation: asked for a capture reaction the program reports that it has no distribution, but exits with status 0 and saves an array of zeros. Argument parsing and the NPY writer are not modelled."
  },
  {
   "property": "C146",
   "status": "partial",
   "theorems": [
    "PNDL.C146_contents",
    "PNDL.C146_cross_sections",
    "PNDL.C146_thermal",
    "PNDL.C146_settings",
    "Example.C146_violation_settings",
    "Example.C146_violation_order"
   ],
   "note": "Proved for every history: where the contents come from (C146_contents), that cross sections, thresholds, grid, probability tables and temperature do not depend on the history provided the tables have contents in the format and agree on being fissile (C146_cross_sections), that thermal laws do not depend on it (C146_thermal), and that only its own setters change a returned nuclide (C146_settings). Not true of the code, with proved counterexamples: a setter called on the nuclide loaded first changes nuclides loaded later (C146_violation_settings); when the tables list different reactions, loading order decides between success and reading outside of a vector (C146_violation_order). By construction the distributions are those of the table loaded first (C146_contents)."
  },
  {
   "property": "C147",
   "status": "partial",
   "theorems": [
    "PNDL.C147_reaction_partial",
    "PNDL.C147_angle_partial",
    "PNDL.C147_nuclide_partial",
    "PNDL.C147_cosine",
    "PNDL.C147_delayed_partial",
    "Example.C147_violation",
    "Example.C147_violation_weight",
    "Example.C147_hypotheses"
   ],
   "note": "Proved for every file: joint density (C147_reaction_partial), cosine density (C147_angle_partial), both for the reactions of a nuclide (C147_nuclide_partial), angular distributions with no condition at all (C147_cosine), delayed spectra (C147_delayed_partial). Conditions on the data, all stated in Spec/ReadDensity and none checked by the code: general evaporation temperatures not negative, Maxwell temperature at most the available energy, Kalbach ratios within [-1,1], mixture weights not negative, and for the cosine density in the CM frame g at most 1. N-body, evaporation, Watt, tabular, correlated and bin laws need no condition. The full claim is false of the code: C147_violation (an accepted file with a Maxwell spectrum), C147_violation_weight; see also C64_violation_negative and C71_violation_negative."
  },
  {
   "property": "C148",
   "status": "partial",
   "theorems": [
    "PNDL.C148_source",
    "PNDL.C148_defined",
    "PNDL.C148_choice",
    "PNDL.C148_law_partial",
    "PNDL.C148_mt18_partial",
    "PNDL.C148_safe_partial",
    "PNDL.C148_cosine",
    "PNDL.C148_energy_partial",
    "PNDL.C148_density_partial",
    "PNDL.C148_closed",
    "PNDL.C148_violation",
    "Example.C148_violation_file"
   ],
   "note": "Source of the spectrum, choice of the partial, law of the samples, cosine range, and (under the conditions of C136, C142, C147) safety, energies and densities are proved for every nuclide read from a fissile file. The full property is false of the code: with several partials open the densities are only the first one's share (C148_violation), and up to the lowest threshold the probabilities are 0/0 although the fission cross section may be positive (C148_closed, C148_violation_file)."
  },
  {
   "property": "C149",
   "status": "partial",
   "theorems": [
    "PNDL.C149_reaction_partial",
    "PNDL.C149_nuclide_partial",
    "PNDL.C149_delayed_partial",
    "Example.C149_violation",
    "Example.C149_violation_line",
    "Example.C149_violation_line_exists",
    "Example.C149_hypotheses"
   ],
   "note": "Proved for every reaction, nuclide and delayed spectrum read from a file when no table is concentrated in one energy and no N-body law has four bodies (Spec.WideDist); both conditions are shown to be needed: C149_violation (an accepted file with four bodies) and C149_violation_line (any law with a discrete line next to a wider table), with an accepted instance."
  },
  {
   "property": "C150",
   "status": "partial",
   "theorems": [
    "PNDL.C150_nonneg_partial",
    "PNDL.C150_from_zero",
    "PNDL.C150_tabular_energy",
    "PNDL.C150_kalbach",
    "PNDL.C150_violation",
    "PNDL.C150_hypotheses",
    "PNDL.C150_exact",
    "PNDL.C150_exact_kalbach"
   ],
   "note": "Proved for every rounding: no energy is negative if the value drawn from the selected table is inside that table (C150_nonneg_partial) or if the tables start at 0 (C150_from_zero, C150_tabular_energy, C150_kalbach), and then the interpolated maximum is an upper bound for values drawn inside the table. The unconditional upper bound is false: C150_violation, 2.5 from tables ending at 1.25. C150_exact and C150_exact_kalbach show that without rounding the model is the sampler of C82/C110. Densities between 0 and 2^-500 are excluded, overflow is not modelled."
  },
  {
   "property": "C151",
   "status": "proved",
   "theorems": [
    "PNDL.C151_angle",
    "PNDL.C151_law",
    "PNDL.C151_reaction",
    "PNDL.C151_fission",
    "PNDL.C151_svt",
    "PNDL.C151_dbrc",
    "PNDL.C151_elastic",
    "PNDL.C151_elastic_svt",
    "PNDL.C151_elastic_dbrc",
    "PNDL.C151_coherent",
    "PNDL.C151_incoherent",
    "PNDL.C151_inelastic",
    "PNDL.C151_collect",
    "PNDL.C151_prefix",
    "PNDL.C151_next"
   ],
   "note": "No hypothesis on the data. C151_collect: the property carries over to loops of calls; C151_prefix and C151_next: its observable consequences."
  },
  {
   "property": "C152",
   "status": "proved",
   "theorems": [
    "PNDL.C152_angle",
    "PNDL.C152_law",
    "PNDL.C152_reaction",
    "PNDL.C152_fission",
    "PNDL.C152_svt",
    "PNDL.C152_dbrc",
    "PNDL.C152_elastic_svt",
    "PNDL.C152_elastic_dbrc",
    "PNDL.C152_coherent",
    "PNDL.C152_incoherent",
    "PNDL.C152_inelastic",
    "PNDL.C152_product",
    "PNDL.C152_returns"
   ],
   "note": "No hypothesis on the data (C144 has the laws themselves, for sound data). C152_product: with the law of one call; C152_returns: the probability that all calls return."
  },
  {
   "property": "C153",
   "status": "proved",
   "theorems": [
    "PNDL.C153_spelling",
    "PNDL.C153_contents",
    "PNDL.C153_blocks",
    "PNDL.C153_temperature",
    "PNDL.C153_binary",
    "PNDL.C153_convert",
    "PNDL.C153_thermal",
    "PNDL.C153_object"
   ],
   "note": "Composes C89 (text reader), C10 (binary round trip) and C99 (nuclide from blocks) through the block accessors of the ACE object (Model/AceObj.lean). C11_violation_nuclide belongs to C11: the object keeps the divided temperature. Secondary distributions of the table: C97, C99. C153_blocks: every number the reader of a reaction consults stands in the file where the format says; C153_thermal and C153_object: the same for thermal tables and for the object itself."
  },
  {
   "property": "C154",
   "status": "partial",
   "theorems": [
    "PNDL.C154_rehash",
    "PNDL.C154_nuclide",
    "PNDL.C154_has_urr_partial",
    "PNDL.C154_short_block",
    "PNDL.C154_late_block",
    "PNDL.C154_violation_vector",
    "Example.C154_violation_block"
   ],
   "note": "Re-hashing is proved for all histories (C154_rehash). C154_has_urr_partial: has_urr and is_valid agree if there is no UNR block (and no energy beyond 50000 MeV), or one of at least three energies starting below the last grid energy. Missing because false: a block of one or two energies is announced but never used, one starting at the end of the grid is used but not announced (C154_violation_block), and a grid made from a list of energies has no value to answer with at all (C154_violation_vector: undefined behaviour)."
  },
  {
   "property": "C155",
   "status": "partial",
   "theorems": [
    "PNDL.C155_window",
    "PNDL.C155_binary64",
    "PNDL.C155_nbody_partial",
    "PNDL.C155_violation_nbody",
    "PNDL.C155_isotropic",
    "PNDL.C155_level",
    "PNDL.C155_exact_maxwell",
    "PNDL.C155_exact_watt",
    "PNDL.C155_exact_evap",
    "PNDL.C155_exact_nbody"
   ],
   "note": "The three spectra, levels and isotropic cosines are proved (C155_window, C155_binary64, C155_level, C155_isotropic), and that with exact arithmetic the model is the one of the other claims (C155_exact_*). C155_nbody_partial: the N-body energy is in the range or NaN. Missing because false: a random number equal to zero makes it NaN (C155_violation_nbody). That the loops end is C42/C103, in exact arithmetic only."
  },
  {
   "property": "C156",
   "status": "partial",
   "theorems": [
    "PNDL.C156_units",
    "PNDL.C156_saved",
    "PNDL.C156_refused",
    "PNDL.C156_same",
    "PNDL.C156_thermal",
    "PNDL.C156_elastic",
    "PNDL.C156_warnings_partial",
    "PNDL.C156_violation_warnings"
   ],
   "note": "Everything about the samples is proved (C156_units, C156_saved, C156_refused, C156_same, C156_thermal, C156_elastic). C156_warnings_partial: sopenmc's warning about thermal laws and spndl's about 400 kT are right. Missing because false (C156_violation_warnings): spndl compares an energy in MeV with 4 and warns in the elastic modes too; sopenmc compares an energy in eV with 400 kT in MeV. OpenMC itself is a parameter of the model; the look-up of groups in the HDF5 file is not modelled."
  },
  {
   "property": "C157",
   "status": "partial",
   "theorems": [
    "PNDL.C157_range",
    "PNDL.C157_exact",
    "PNDL.C157_number_partial",
    "PNDL.C157_violation_zero",
    "PNDL.C157_violation_overflow",
    "PNDL.C157_violation_sign",
    "PNDL.C157_violation_cancel",
    "PNDL.C157_violation_example"
   ],
   "note": "Proved: the cosine is NaN or in [-1, 1] whatever the machine (C157_range); with exact arithmetic it is the cosine of C141 (C157_exact); for A > 0 with finite sinh(A), exp(A), exp(-A) it is a number in [-1, 1] (C157_number_partial). The rest is false of the code: A = 0 gives NaN (C157_violation_zero), overflow of sinh(A) gives NaN for backward draws (C157_violation_overflow), overflow of the square of T sends backward draws straight ahead (C157_violation_sign), and from T <= -2^28 the sum T + sqrt(T*T+1) cancels to 0 so all draws give -1 (C157_violation_cancel, with a concrete case A = 40 in C157_violation_example)."
  },
  {
   "property": "C158",
   "status": "partial",
   "theorems": [
    "PNDL.C158_safe",
    "PNDL.C158_no_leak",
    "PNDL.C158_reference",
    "PNDL.C158_same_broadener",
    "PNDL.C158_set",
    "PNDL.C158_set_values",
    "PNDL.C158_set_broadener",
    "PNDL.C158_derived",
    "PNDL.C158_copied",
    "PNDL.C158_assigned",
    "PNDL.C158_independent_partial",
    "PNDL.C158_violation_copy",
    "PNDL.C158_violation_reference"
   ],
   "note": "Proved for every program: no use of a destroyed object (C158_safe), no leak (C158_no_leak), a broadener lives exactly as long as it has an owner and never changes (C158_reference, C158_same_broadener), effect of setters, derivation, copying and assignment (C158_set, C158_set_broadener, C158_derived, C158_copied, C158_assigned). C158_independent_partial: independence of nuclides, for programs that do not copy or assign nuclides. Missing because false: the copy constructor shares the Elastic, so a setter on a copy changes the original (C158_violation_copy); the reference returned by elastic_doppler_broadener() dangles after set_elastic_doppler_broadener (C158_violation_reference)."
  },
  {
   "property": "C159",
   "status": "partial",
   "theorems": [
    "PNDL.C159_records",
    "PNDL.C159_complete",
    "PNDL.C159_header",
    "PNDL.C159_violation_undefined",
    "PNDL.C159_violation_silent",
    "PNDL.C159_written_partial",
    "PNDL.C159_violation_overwrite"
   ],
   "note": "Complete description of what reading gives for every stop: C159_records (from byte 512 on: everything but XSS exact, XSS what arrived followed by zeros), C159_complete (a stop in the last four bytes loses nothing), C159_header (312 to 507: a table of zeros), C159_written_partial (no wrong number except zeros). Missing because false: below 312 bytes and from 508 to 511 the reader uses numbers it has not read (C159_violation_undefined); a truncated file is never refused, so every lost entry that is not zero silently becomes zero (C159_violation_silent); saving over a good file destroys it before anything is written (C159_violation_overwrite)."
  },
  {
   "property": "C160",
   "status": "partial",
   "theorems": [
    "PNDL.C160_grid_item",
    "PNDL.C160_negative",
    "PNDL.C160_xs_item",
    "PNDL.C160_contains_partial",
    "PNDL.C160_violation_item",
    "PNDL.C160_violation_iterate",
    "PNDL.C160_violation_contains",
    "PNDL.C160_violation_iterate_xs",
    "PNDL.C160_override_partial",
    "PNDL.C160_violation_none"
   ],
   "note": "Proved: items in range (C160_grid_item, C160_xs_item), negative indices refused (C160_negative), membership of grid points (C160_contains_partial), numbers returned by overriding methods (C160_override_partial). Missing because false: indices past the end are read (C160_violation_item), so iterating over any grid or asking for an absent energy is undefined (C160_violation_iterate, C160_violation_contains), iterating over a cross section never ends (C160_violation_iterate_xs); an energy law written in Python cannot return None (C160_violation_none). pybind11's conversions and CPython's sequence iteration are modelled as documented."
  },
  {
   "property": "C161",
   "status": "partial",
   "theorems": [
    "PNDL.C161_law_partial",
    "PNDL.C161_violation_iff",
    "PNDL.C161_violation_full",
    "PNDL.C161_distribution_partial",
    "PNDL.C161_elastic_rest_partial",
    "PNDL.C161_elastic_gas_partial"
   ],
   "note": "False of the code: sample_mu chooses one of 33 bins and does not scale by the width of the bin. C161_law_partial gives the law actually drawn (33 windows of width 32/33 placed by the bounds, moved into [-1,1]); C161_violation_iff shows that it is the reported one exactly for bins that are all 1/33 wide, and C161_violation_full that it never is for bins covering all cosines. The laws of angular distributions (C161_distribution_partial) and of elastic scattering off a target at rest of another mass than the neutron's or off a free gas (C161_elastic_rest_partial, C161_elastic_gas_partial) follow for any angular data; see also C121_violation_bins."
  },
  {
   "property": "C162",
   "status": "proved",
   "theorems": [
    "PNDL.C162_smear",
    "PNDL.C162_incoherent",
    "PNDL.C162_file",
    "PNDL.C162_incoherent_total",
    "PNDL.C162_coherent",
    "PNDL.C162_exact"
   ],
   "note": "C162_coherent holds for every way of rounding to nearest; C162_smear, C162_incoherent, C162_file and C162_incoherent_total for the default rounding (ties to even, same for both signs). Neighbouring interpolated cosines may come out in the wrong order, so that a gap is negative; mix_cross bounds by how much. A single incoming energy is C66_violation_single. Overflow of 2 * E_bragg is not modelled. C162_exact: with exact arithmetic these models are those of C65 and C66."
  },
  {
   "property": "C163",
   "status": "partial",
   "theorems": [
    "PNDL.C163_packet",
    "PNDL.C163_close",
    "PNDL.C163_no_inelastic",
    "PNDL.C163_violation",
    "PNDL.C163_fission",
    "PNDL.C163_built",
    "PNDL.C163_tables",
    "PNDL.C163_tables_total",
    "PNDL.C163_exact"
   ],
   "note": "C163_violation: a file whose total is elastic plus absorption rounded to the nearest double is reported to scatter inelastically; C163_no_inelastic bounds by how much. Energies below the grid are C58_violation_below and C31; overflow is not modelled. C163_tables says nothing about heating of nuclides, which may be negative. C163_exact: with exact arithmetic these models are those of C57, C58 and C60."
  },
  {
   "property": "C164",
   "status": "partial",
   "theorems": [
    "PNDL.C164_thresholds",
    "PNDL.C164_possible",
    "PNDL.C164_share",
    "PNDL.C164_violation",
    "PNDL.C164_fission",
    "PNDL.C164_fission_possible",
    "PNDL.C164_partials",
    "PNDL.C164_violation_fission",
    "PNDL.C164_exact"
   ],
   "note": "The last sentence fails next to 1: C164_violation (probabilities 3/4, 1/16+, 1/16+, 1/8-, 0 that add up to 1 exactly; the last distribution is sampled for the random number 1 - 2^-53) and C164_violation_fission (partial cross sections 1, 4, 1, 0: fourth-chance fission is sampled although it is closed). C164_possible and C164_fission_possible: it holds for random numbers further than a rounding per component from 1. What the chosen distribution does afterwards is not rounded here; overflow is not modelled. C164_exact: with exact arithmetic these are the models of C61 and C62."
  },
  {
   "property": "C165",
   "status": "partial",
   "theorems": [
    "PNDL.C165_in_bin_partial",
    "PNDL.C165_undefined_iff",
    "PNDL.C165_violation",
    "PNDL.C165_monotone",
    "PNDL.C165_close",
    "PNDL.C165_energy_partial",
    "PNDL.C165_evaporation_partial",
    "PNDL.C165_law_range",
    "PNDL.C165_neighbour",
    "PNDL.C165_range",
    "PNDL.C165_tabulated",
    "PNDL.C165_returns",
    "PNDL.C165_exact",
    "PNDL.C165_exact_angle"
   ],
   "note": "A value is not always returned: C165_undefined_iff and C165_violation (every set of n bounds and every draw of at least (n-1)/n read outside the bounds, as in C40). Below those draws: C165_in_bin_partial, C165_energy_partial, C165_evaporation_partial, with C165_monotone and C165_close. The angular claims hold in full: C165_law_range, C165_range, C165_neighbour, C165_tabulated, C165_returns (tables and Legendre laws may fail to return for the reasons of C35; the acceptance ratio of a Legendre law is an arbitrary function). Overflow is not modelled. C165_exact, C165_exact_angle: without rounding these are the models of C40 and C35."
  },
  {
   "property": "C166",
   "status": "partial",
   "theorems": [
    "PNDL.C166_discrete",
    "PNDL.C166_discrete_positive_partial",
    "PNDL.C166_violation",
    "PNDL.C166_cosine",
    "PNDL.C166_plain_nonneg_partial",
    "PNDL.C166_unit_nonneg_partial",
    "PNDL.C166_file",
    "PNDL.C166_exact"
   ],
   "note": "C166_discrete (total, indices, cosine, closeness, energy not negative), C166_discrete_positive_partial; positivity is false in general: C166_violation (the energy returned at a tabulated incoming energy is 0 when the table before it has an energy 2^60 times larger). Continuous energies: C166_cosine; C166_plain_nonneg_partial (with half_weight and plainOutFl_nonneg: the computed weight, half and shift never choose a table more than twice the incoming energy away); C166_unit_nonneg_partial for tables that start at energy 0; C166_file for every accepted file. Densities that are positive but below 2^-500 and overflow are excluded. C166_exact: without rounding these are the models of C85 and C86."
  },
  {
   "property": "C167",
   "status": "proved",
   "theorems": [
    "PNDL.C167_maxwell_candidates",
    "PNDL.C167_evaporation_candidates",
    "PNDL.C167_watt_candidates",
    "PNDL.C167_maxwell",
    "PNDL.C167_evaporation",
    "PNDL.C167_watt",
    "PNDL.C167_no_return",
    "PNDL.C167_nbody",
    "PNDL.C167_nbody_max",
    "PNDL.C167_exact"
   ],
   "note": "C167_maxwell_candidates, C167_evaporation_candidates, C167_watt_candidates; C167_maxwell, C167_evaporation, C167_watt; C167_no_return; C167_nbody, C167_nbody_max. Spec.SoundLibm states what is asked of the library's functions, and soundLibm_rounded shows the correctly rounded ones meet it. The parameters tabulated against incoming energy are given by their values there (their evaluation in double arithmetic is C128, C129). Draws are taken in the order of the text. Overflow is not modelled. C167_exact: without rounding these are the models of C42 and C43. The negative maximum for mass ratios below 1 is C43_violation's."
  },
  {
   "property": "C168",
   "status": "proved",
   "theorems": [
    "PNDL.C168_polynomial",
    "PNDL.C168_polynomial_mono",
    "PNDL.C168_polynomial_const",
    "PNDL.C168_integrate",
    "PNDL.C168_level_make",
    "PNDL.C168_level",
    "PNDL.C168_level_mono",
    "PNDL.C168_photon",
    "PNDL.C168_exact"
   ],
   "note": "C168_polynomial (error bound for every degree), C168_polynomial_mono, C168_polynomial_const, C168_integrate, C168_level_make, C168_level, C168_level_mono, C168_photon. Overflow is not modelled. C168_exact: without rounding these are the models of C24, C74 and C98."
  },
  {
   "property": "C169",
   "status": "partial",
   "theorems": [
    "PNDL.C169_table_cosine",
    "PNDL.C169_cosine",
    "PNDL.C169_table_lower",
    "PNDL.C169_nonneg_partial",
    "PNDL.C169_violation",
    "PNDL.C169_exact"
   ],
   "note": "C169_table_cosine and C169_cosine (every table, every rounding), C169_table_lower, C169_nonneg_partial (tables that start at energy 0, or draws inside their table). The bound by the largest energy is false of the code: C169_violation (tables from 0 to 1.25, the energy drawn is 2.5). Densities that are positive but below 2^-500 and overflow are excluded. C169_exact: without rounding these are the models of C63."
  },
  {
   "property": "C170",
   "status": "partial",
   "theorems": [
    "PNDL.C170_bragg_partial",
    "PNDL.C170_edge_partial",
    "PNDL.C170_transport_partial",
    "PNDL.C170_violation_last_edge",
    "PNDL.C170_violation_last_edge_witness"
   ],
   "note": "C170_bragg_partial for every quantity g at every energy but the first and last edges; C170_edge_partial and C170_transport_partial are its consequences for one edge and for the transport cross section. At the last edge the code violates it: the cross section contains the last step, the samples do not (C170_violation_last_edge, C170_violation_last_edge_witness); at the first edge see C65_violation_first_edge."
  },
  {
   "property": "C171",
   "status": "proved",
   "theorems": [
    "PNDL.C171_mean",
    "PNDL.C171_light",
    "PNDL.C171_energy"
   ],
   "note": "C171_energy (every sound angular distribution: the mean energy from the mean of the reported density), C171_mean (isotropic, A >= 1: both means), C171_light (A <= 1: mean cosine). The means are over the law of the pairs returned, C121."
  }
 ]
}