{
 "claims": [
  {
   "property": "C01",
   "status": "proved",
   "theorems": [
    "Abc.C01_candidateSet_ok_iff",
    "Abc.C01_candidateSet_elements",
    "Abc.C01_candidateSet_error"
   ],
   "note": ""
  },
  {
   "property": "C02",
   "status": "proved",
   "theorems": [
    "Abc.C02_profile_wf_invariant",
    "Abc.C02_mkProfile_ok_iff"
   ],
   "note": ""
  },
  {
   "property": "C03",
   "status": "proved",
   "theorems": [
    "Abc.C03_convert_to_unit_weights",
    "Abc.C03_convert_to_unit_weights_error"
   ],
   "note": ""
  },
  {
   "property": "C04",
   "status": "proved",
   "theorems": [
    "Abc.C04_convert_to_weighted"
   ],
   "note": ""
  },
  {
   "property": "C05",
   "status": "proved",
   "theorems": [
    "Abc.C05_copy_voters",
    "Abc.C05_copy_drops_names",
    "Abc.C05_copy_names"
   ],
   "note": ""
  },
  {
   "property": "C06",
   "status": "proved",
   "theorems": [
    "Abc.C06_isPartyList_iff"
   ],
   "note": ""
  },
  {
   "property": "C07",
   "status": "proved",
   "theorems": [
    "Abc.C07_sortedCommittees_perm_sorted",
    "Abc.C07_sortedCommittees_error",
    "Abc.C07_sortedCommittees_order_independent",
    "Abc.C07_printed_form_injective",
    "Abc.C07_key_is_printed_form"
   ],
   "note": ""
  },
  {
   "property": "C08",
   "status": "proved",
   "theorems": [
    "Abc.C08_hamming_eq_symmDiff",
    "Abc.C08_hamming_eq_zero_iff",
    "Abc.C08_hamming_symm",
    "Abc.C08_hamming_triangle"
   ],
   "note": ""
  },
  {
   "property": "C09",
   "status": "proved",
   "theorems": [
    "Abc.C09_dominate_iff",
    "Abc.C09_dominates_irrefl",
    "Abc.C09_dominates_trans",
    "Abc.C09_dominates_asymm"
   ],
   "note": ""
  },
  {
   "property": "C10",
   "status": "proved",
   "theorems": [
    "Abc.C10_mem_powerset",
    "Abc.C10_powerset_complete",
    "Abc.C10_powerset_nodup",
    "Abc.C10_powerset_by_size"
   ],
   "note": ""
  },
  {
   "property": "C11",
   "status": "proved",
   "theorems": [
    "Abc.C11_binom_eq"
   ],
   "note": ""
  },
  {
   "property": "C12",
   "status": "proved",
   "theorems": [
    "Abc.C12_compute_result",
    "Abc.C12_compare_iff",
    "Abc.C12_verify_resolute",
    "Abc.C12_verify_irresolute"
   ],
   "note": ""
  },
  {
   "property": "C13",
   "status": "proved",
   "theorems": [
    "Abc.C13_thieleScore_eq",
    "Abc.C13_named_scores"
   ],
   "note": ""
  },
  {
   "property": "C14",
   "status": "proved",
   "theorems": [
    "Abc.C14_marginalAdd"
   ],
   "note": ""
  },
  {
   "property": "C15",
   "status": "proved",
   "theorems": [
    "Abc.C15_marginalRemove"
   ],
   "note": ""
  },
  {
   "property": "C16",
   "status": "proved",
   "theorems": [
    "Abc.C16_nonneg_nonincreasing",
    "Abc.C16_geom_small_base_increasing",
    "Abc.C16_cc_eq_atleast1",
    "Abc.C16_cumulative",
    "Abc.C16_thieleScore_cumulative",
    "Abc.C16_av_score",
    "Abc.C16_atleast_score",
    "Abc.C16_getScoreId"
   ],
   "note": ""
  },
  {
   "property": "C17",
   "status": "proved",
   "theorems": [
    "Abc.C17_matching",
    "Abc.C17_flow",
    "Abc.C17_monroescore",
    "Abc.C17_empty"
   ],
   "note": ""
  },
  {
   "property": "C18",
   "status": "proved",
   "theorems": [
    "Abc.C18_minimaxavScore",
    "Abc.C18_numVotersUpperBounded"
   ],
   "note": ""
  },
  {
   "property": "C19",
   "status": "proved",
   "theorems": [
    "Abc.C19_rule_table",
    "Abc.C19_resolute_supported",
    "Abc.C19_compute_rejects",
    "Abc.C19_compute_ok_valid",
    "Abc.C19_seqav_accepted",
    "Abc.C19_gmpy2_missing",
    "Abc.C19_verify_ok_iff",
    "Abc.C19_verify_error",
    "Abc.C19_prologue_ok_iff",
    "Abc.C19_compute_fails",
    "Abc.C19_fastest"
   ],
   "note": ""
  },
  {
   "property": "C20",
   "status": "proved",
   "theorems": [
    "Abc.C20_separable_optimal"
   ],
   "note": ""
  },
  {
   "property": "C21",
   "status": "proved",
   "theorems": [
    "Abc.C21_bruteforce_optimal"
   ],
   "note": ""
  },
  {
   "property": "C22",
   "status": "proved",
   "theorems": [
    "Abc.C22_bnb_optimal",
    "Abc.C22_bnb_eq_bruteforce",
    "Abc.C22_geom_below_one_fails"
   ],
   "note": ""
  },
  {
   "property": "C23",
   "status": "proved",
   "theorems": [
    "Abc.C23_lexcc_optimal"
   ],
   "note": ""
  },
  {
   "property": "C24",
   "status": "proved",
   "theorems": [
    "Abc.C24_minimaxav_optimal"
   ],
   "note": ""
  },
  {
   "property": "C25",
   "status": "proved",
   "theorems": [
    "Abc.C25_lexminimaxav_optimal"
   ],
   "note": ""
  },
  {
   "property": "C26",
   "status": "proved",
   "theorems": [
    "Abc.C26_monroe_optimal"
   ],
   "note": ""
  },
  {
   "property": "C27",
   "status": "proved",
   "theorems": [
    "Abc.C27_seqThiele",
    "Abc.C27_seqThiele_resolute"
   ],
   "note": ""
  },
  {
   "property": "C28",
   "status": "proved",
   "theorems": [
    "Abc.C28_revseq_resolute",
    "Abc.C28_revseq_committees",
    "Abc.C28_revseq_exact",
    "Abc.C28_duplicates"
   ],
   "note": ""
  },
  {
   "property": "C29",
   "status": "proved",
   "theorems": [
    "Abc.C29_resolute_mem"
   ],
   "note": "Exact arithmetic (the algorithm float-fractions is not covered). World.Exact lists the assumptions on solvers, matching and flow libraries; Elects states per rule what is returned and under which weight conditions."
  },
  {
   "property": "C30",
   "status": "proved",
   "theorems": [
    "Abc.C30_max_num"
   ],
   "note": "Exact arithmetic; for minimaxphragmen/leximaxphragmen the exception for too few approved candidates is part of the statement."
  },
  {
   "property": "C31",
   "status": "proved",
   "theorems": [
    "Abc.C31_compute",
    "Abc.C31_valid",
    "Abc.C31_defaults",
    "Abc.C31_result",
    "Abc.C31_few"
   ],
   "note": "Exact arithmetic (not float-fractions), exact solvers (World.Exact); weight conditions per rule are stated in Elects."
  },
  {
   "property": "C32",
   "status": "proved",
   "theorems": [
    "Abc.C32_greedy_monroe"
   ],
   "note": ""
  },
  {
   "property": "C33",
   "status": "proved",
   "theorems": [
    "Abc.C33_seqphragmen_resolute",
    "Abc.C33_seqphragmen",
    "Abc.C33_total_load",
    "Abc.C33_small_weights_fail"
   ],
   "note": ""
  },
  {
   "property": "C34",
   "status": "proved",
   "theorems": [
    "Abc.C34_seqphragmen_PJR"
   ],
   "note": ""
  },
  {
   "property": "C35",
   "status": "proved",
   "theorems": [
    "Abc.C35_price"
   ],
   "note": ""
  },
  {
   "property": "C36",
   "status": "proved",
   "theorems": [
    "Abc.C36_budgets",
    "Abc.C36_outcome"
   ],
   "note": ""
  },
  {
   "property": "C37",
   "status": "proved",
   "theorems": [
    "Abc.C37_equal_shares_EJRplus",
    "Abc.C37_increment_not_JR"
   ],
   "note": ""
  },
  {
   "property": "C38",
   "status": "proved",
   "theorems": [
    "Abc.C38_equal_shares_resolute",
    "Abc.C38_equal_shares"
   ],
   "note": ""
  },
  {
   "property": "C39",
   "status": "proved",
   "theorems": [
    "Abc.C39_increment",
    "Abc.C39_small_weights_fail"
   ],
   "note": ""
  },
  {
   "property": "C40",
   "status": "proved",
   "theorems": [
    "Abc.C40_budget_range",
    "Abc.C40_payment",
    "Abc.C40_enestroem"
   ],
   "note": ""
  },
  {
   "property": "C41",
   "status": "proved",
   "theorems": [
    "Abc.C41_consensus",
    "Abc.C41_budget_balance",
    "Abc.C41_supporter"
   ],
   "note": ""
  },
  {
   "property": "C42",
   "status": "proved",
   "theorems": [
    "Abc.C42_trivial",
    "Abc.C42_first"
   ],
   "note": ""
  },
  {
   "property": "C43",
   "status": "proved",
   "theorems": [
    "Abc.C43_rsd",
    "Abc.C43_first_dictator"
   ],
   "note": ""
  },
  {
   "property": "C44",
   "status": "proved",
   "theorems": [
    "Abc.C44_eph",
    "Abc.C44_single_candidate",
    "Abc.C44_winner_committee"
   ],
   "note": ""
  },
  {
   "property": "C45",
   "status": "proved",
   "theorems": [
    "Abc.C45_pav_bruteforce",
    "Abc.C45_pav_bnb",
    "Abc.C45_consequences"
   ],
   "note": ""
  },
  {
   "property": "C46",
   "status": "proved",
   "theorems": [
    "Abc.C46_bruteforce_pareto",
    "Abc.C46_bnb_pareto",
    "Abc.C46_av_pareto"
   ],
   "note": ""
  },
  {
   "property": "C47",
   "status": "proved",
   "theorems": [
    "Abc.C47_cc_bruteforce",
    "Abc.C47_cc_bnb",
    "Abc.C47_seqcc"
   ],
   "note": ""
  },
  {
   "property": "C48",
   "status": "proved",
   "theorems": [
    "Abc.C48_seqThiele",
    "Abc.C48_seqThiele_irresolute",
    "Abc.C48_revseqThiele",
    "Abc.C48_revseqThiele_irresolute",
    "Abc.C48_seqphragmen",
    "Abc.C48_seqphragmen_irresolute"
   ],
   "note": ""
  },
  {
   "property": "C49",
   "status": "proved",
   "theorems": [
    "Abc.C49_anonymity",
    "Abc.C49_lexminimaxav",
    "Abc.C49_monroe",
    "Abc.C49_greedy_monroe_not_anonymous"
   ],
   "note": ""
  },
  {
   "property": "C50",
   "status": "proved",
   "theorems": [
    "Abc.C50_convert_to_unit_weights",
    "Abc.C50_convert_to_weighted",
    "Abc.C50_thiele",
    "Abc.C50_seqThiele",
    "Abc.C50_revseqThiele",
    "Abc.C50_separable",
    "Abc.C50_lexcc",
    "Abc.C50_minimaxav",
    "Abc.C50_trivial",
    "Abc.C50_seqphragmen",
    "Abc.C50_enestroem",
    "Abc.C50_consensus",
    "Abc.C50_equal_shares",
    "Abc.C50_eph"
   ],
   "note": ""
  },
  {
   "property": "C51",
   "status": "proved",
   "theorems": [
    "Abc.C51_check_JR"
   ],
   "note": ""
  },
  {
   "property": "C52",
   "status": "proved",
   "theorems": [
    "Abc.C52_check_pareto"
   ],
   "note": ""
  },
  {
   "property": "C53",
   "status": "proved",
   "theorems": [
    "Abc.C53_check_EJR",
    "Abc.C53_weighted_fails"
   ],
   "note": ""
  },
  {
   "property": "C54",
   "status": "proved",
   "theorems": [
    "Abc.C54_check_PJR",
    "Abc.C54_weighted_fails"
   ],
   "note": ""
  },
  {
   "property": "C55",
   "status": "proved",
   "theorems": [
    "Abc.C55_check_EJR_plus",
    "Abc.C55_check_EJR_plus_default",
    "Abc.C55_large_quota_KeyError"
   ],
   "note": ""
  },
  {
   "property": "C56",
   "status": "proved",
   "theorems": [
    "Abc.C56_check_FJR"
   ],
   "note": ""
  },
  {
   "property": "C57",
   "status": "proved",
   "theorems": [
    "Abc.C57_check_core"
   ],
   "note": ""
  },
  {
   "property": "C58",
   "status": "proved",
   "theorems": [
    "Abc.C58_core_FJR",
    "Abc.C58_FJR_EJR",
    "Abc.C58_EJRplus_EJR",
    "Abc.C58_EJR_PJR",
    "Abc.C58_PJR_JR",
    "Abc.C58_check"
   ],
   "note": ""
  },
  {
   "property": "C59",
   "status": "proved",
   "theorems": [
    "Abc.C59_JR_witness",
    "Abc.C59_pareto_witness",
    "Abc.C59_EJR_witness",
    "Abc.C59_PJR_witness",
    "Abc.C59_EJR_group_wrong",
    "Abc.C59_EJRplus_witness",
    "Abc.C59_FJR_witness",
    "Abc.C59_core_witness"
   ],
   "note": ""
  },
  {
   "property": "C60",
   "status": "proved",
   "theorems": [
    "Abc.C60_check_quota",
    "Abc.C60_check",
    "Abc.C60_algorithms_agree",
    "Abc.C60_check_rejects",
    "Abc.C60_EJR_program",
    "Abc.C60_PJR_program",
    "Abc.C60_FJR_program",
    "Abc.C60_core_program",
    "Abc.C60_pareto_program"
   ],
   "note": ""
  },
  {
   "property": "C61",
   "status": "proved",
   "theorems": [
    "Abc.C61_enumeration"
   ],
   "note": "Solvers are parameters assumed to return an optimal solution of the program they are given, or to report infeasibility."
  },
  {
   "property": "C62",
   "status": "proved",
   "theorems": [
    "Abc.C62_lexcc_program",
    "Abc.C62_gurobi_lexcc",
    "Abc.C62_compute_lexcc",
    "Abc.C62_lexminimaxav_program",
    "Abc.C62_gurobi_lexminimaxav",
    "Abc.C62_compute_lexminimaxav",
    "Abc.C62_minimaxav_program",
    "Abc.C62_ilp_minimaxav",
    "Abc.C62_compute_minimaxav",
    "Abc.C62_monroe_program",
    "Abc.C62_monroe_program_cp",
    "Abc.C62_compute_monroe",
    "Abc.C62_thiele_program",
    "Abc.C62_ilp_thiele",
    "Abc.C62_cc_program",
    "Abc.C62_ortools_cc",
    "Abc.C62_compute_thiele",
    "Abc.C62_ilp_thiele_rejects"
   ],
   "note": "As C61; tolerances of the code (1e-8, 1e-6, CMP_ACCURACY) are modelled, solver round-off is not."
  },
  {
   "property": "C63",
   "status": "proved",
   "theorems": [
    "Abc.C63_read",
    "Abc.C63_read_ok_iff",
    "Abc.C63_read_malformatted",
    "Abc.C63_read_errors",
    "Abc.C63_write_ok_iff",
    "Abc.C63_roundtrip",
    "Abc.C63_rewrite",
    "Abc.C63_rewrite_fails"
   ],
   "note": "ruamel.yaml is a parameter assumed to read back what it wrote for the numbers in use; everything between it and Profile is modelled."
  },
  {
   "property": "C64",
   "status": "proved",
   "theorems": [
    "Abc.C64_roundtrip",
    "Abc.C64_roundtrip_integral",
    "Abc.C64_fractional_weights_lost"
   ],
   "note": "preflibtools is a parameter assumed to read back what it wrote, with ballots in any order."
  },
  {
   "property": "C65",
   "status": "proved",
   "theorems": [
    "Abc.C65_print_verbosity",
    "Abc.C65_printed",
    "Abc.C65_print_all",
    "Abc.C65_levels",
    "Abc.C65_logged",
    "Abc.C65_full_analysis",
    "Abc.C65_full_analysis_raises",
    "Abc.C65_full_analysis_correct",
    "Abc.C65_full_analysis_bad_committee"
   ],
   "note": ""
  },
  {
   "property": "C66",
   "status": "proved",
   "theorems": [
    "Abc.C66_addVoter",
    "Abc.C66_addVoters",
    "Abc.C66_setItem"
   ],
   "note": ""
  },
  {
   "property": "C67",
   "status": "proved",
   "theorems": [
    "Abc.C67_minimaxphragmen_program",
    "Abc.C67_ilp_minimaxphragmen",
    "Abc.C67_too_few_approved",
    "Abc.C67_minimaxphragmen_tolerance",
    "Abc.C67_compute_minimaxphragmen",
    "Abc.C67_compute_minimaxphragmen_rational",
    "Abc.C67_compute_minimaxphragmen_few",
    "Abc.C67_few_ignores_max",
    "Abc.C67_small_weights_error",
    "Abc.C67_load_iff",
    "Abc.C67_support_iff",
    "Abc.C67_min_load",
    "Abc.C67_max_support"
   ],
   "note": "Exact solver; the 1e-7 distinctions caused by the code's own tolerance are part of the statements."
  },
  {
   "property": "C68",
   "status": "proved",
   "theorems": [
    "Abc.C68_maximin_program",
    "Abc.C68_compute_maximin_support_tol",
    "Abc.C68_maximin_best",
    "Abc.C68_maximin_tolerance",
    "Abc.C68_compute_maximin_support",
    "Abc.C68_maximin_PJR",
    "Abc.C68_compute_maximin_PJR"
   ],
   "note": ""
  },
  {
   "property": "C69",
   "status": "proved",
   "theorems": [
    "Abc.C69_check_priceability",
    "Abc.C69_no_price_system",
    "Abc.C69_stable_priceable"
   ],
   "note": ""
  },
  {
   "property": "C70",
   "status": "proved",
   "theorems": [
    "Abc.C70_leximax_program",
    "Abc.C70_gurobi_leximaxphragmen",
    "Abc.C70_levels_exact",
    "Abc.C70_leximax_exists",
    "Abc.C70_levels_minimax",
    "Abc.C70_leximax_minimax",
    "Abc.C70_compute_leximaxphragmen",
    "Abc.C70_winner_minimax",
    "Abc.C70_compute_leximaxphragmen_few",
    "Abc.C70_lexicographic_rejects",
    "Abc.C70_lexicographic",
    "Abc.C70_lexicographic_finding",
    "Abc.C70_tolerance_finding",
    "Abc.C70_tolerance_code"
   ],
   "note": "Exact solver; the code's tolerances 1e-8 and 1e-7 are part of the statements."
  },
  {
   "property": "C71",
   "status": "proved",
   "theorems": [
    "Abc.C71_read_top_ranks",
    "Abc.C71_read_setsize",
    "Abc.C71_read_rejects",
    "Abc.C71_zero_accepted"
   ],
   "note": ""
  },
  {
   "property": "C72",
   "status": "proved",
   "theorems": [
    "Abc.C72_get_file_names",
    "Abc.C72_read_dir"
   ],
   "note": ""
  },
  {
   "property": "C73",
   "status": "proved",
   "theorems": [
    "Abc.C73_profile",
    "Abc.C73_accepts",
    "Abc.C73_errors",
    "Abc.C73_setsize"
   ],
   "note": "The samplers of prefsampling are parameters (any samples, any exception); setsize / num_cand is exact division."
  },
  {
   "property": "C74",
   "status": "proved",
   "theorems": [
    "Abc.C74_sampler_of",
    "Abc.C74_distribution",
    "Abc.C74_random_point",
    "Abc.C74_dimensions",
    "Abc.C74_known_names",
    "Abc.C74_points_precedence",
    "Abc.C74_return_points"
   ],
   "note": "Point samplers and sample_election_positions are parameters; Python's int() on strings is a parameter."
  },
  {
   "property": "C75",
   "status": "proved",
   "theorems": [
    "Abc.C75_compute",
    "Abc.C75_python",
    "Abc.C75_float_weights_increment_fails",
    "Abc.C75_eph",
    "Abc.C75_eph_single_candidate",
    "Abc.C75_seqphragmen",
    "Abc.C75_enestroem",
    "Abc.C75_consensus",
    "Abc.C75_equal_shares_without_completion",
    "Abc.C75_equal_shares_with_av_completion",
    "Abc.C75_equal_shares",
    "Abc.C75_equal_shares_with_increment_completion"
   ],
   "note": ""
  },
  {
   "property": "C76",
   "status": "proved",
   "theorems": [
    "Abc.C76_seqphragmen_separated",
    "Abc.C76_seqphragmen_same",
    "Abc.C76_seqphragmen",
    "Abc.C76_eph_separated",
    "Abc.C76_eph",
    "Abc.C76_compute",
    "Abc.C76_python",
    "Abc.C76_large_weights"
   ],
   "note": ""
  },
  {
   "property": "C77",
   "status": "proved",
   "theorems": [
    "Abc.C77_compute_check",
    "Abc.C77_compute_check_brute_force",
    "Abc.C77_leximax_PJR",
    "Abc.C77_leximax_check",
    "Abc.C77_minimaxphragmen_finding"
   ],
   "note": "Exact arithmetic in compute; exact solvers in compute and check. The premises per rule are stated in Spec/Promises.lean."
  },
  {
   "property": "C78",
   "status": "proved",
   "theorems": [
    "Abc.C78_rename",
    "Abc.C78_irresolute",
    "Abc.C78_anonymity"
   ],
   "note": "Exact arithmetic, exact solvers; stated for compute as a whole via C31."
  },
  {
   "property": "C79",
   "status": "proved",
   "theorems": [
    "Abc.C79_scale",
    "Abc.C79_irresolute",
    "Abc.C79_tolerance_rules"
   ],
   "note": "Exact arithmetic, exact solvers; stated for compute as a whole via C31."
  },
  {
   "property": "C80",
   "status": "proved",
   "theorems": [
    "Abc.C80_check",
    "Abc.C80_check_quota"
   ],
   "note": "Exact solver (Gurobi algorithms); brute-force checks agree with them by C60 where they are correct."
  },
  {
   "property": "C81",
   "status": "proved",
   "theorems": [
    "Abc.C81_compute",
    "Abc.C81_agree",
    "Abc.C81_check",
    "Abc.C81_check_quota",
    "Abc.C81_check_raises",
    "Abc.C81_compute_raises"
   ],
   "note": "Solvers as functions from programs to answers that are right or absent; exact arithmetic."
  },
  {
   "property": "C82",
   "status": "proved",
   "theorems": [
    "Abc.C82_default",
    "Abc.C82_completion",
    "Abc.C82_completion_unknown",
    "Abc.C82_completion_elects",
    "Abc.C82_rule_x",
    "Abc.C82_rule_x_elects",
    "Abc.C82_type_error",
    "Abc.C82_unknown_rule",
    "Abc.C82_lexicographic_false",
    "Abc.C82_lexicographic"
   ],
   "note": "Keyword arguments modelled in Model/Keywords; float results as parameter."
  },
  {
   "property": "C83",
   "status": "proved",
   "theorems": [
    "Abc.C83_compute_sound",
    "Abc.C83_compute",
    "Abc.C83_thiele_apart",
    "Abc.C83_pav_apart",
    "Abc.C83_cc_apart",
    "Abc.C83_lexcc_apart",
    "Abc.C83_check",
    "Abc.C83_check_quota",
    "Abc.C83_thiele_near",
    "Abc.C83_gap_needed"
   ],
   "note": "The solver is modelled as returning values within 1/10 of some exactly feasible solution that is optimal up to eps. Not covered: minimaxphragmen, leximaxphragmen and maximin-support, where the code uses the objective value reported by the solver."
  },
  {
   "property": "C84",
   "status": "proved",
   "theorems": [
    "Abc.C84_committees",
    "Abc.C84_no_committees",
    "Abc.C84_default_names",
    "Abc.C84_default_readable",
    "Abc.C84_committees_injective",
    "Abc.C84_voter_names",
    "Abc.C84_voter",
    "Abc.C84_voter_injective",
    "Abc.C84_header",
    "Abc.C84_header_empty_symbol",
    "Abc.C84_profile",
    "Abc.C84_profile_empty",
    "Abc.C84_compact_weights",
    "Abc.C84_compact_once",
    "Abc.C84_compact_twice",
    "Abc.C84_compact_text",
    "Abc.C84_named"
   ],
   "note": ""
  },
  {
   "property": "C85",
   "status": "proved",
   "theorems": [
    "Abc.C85_seq_protocol",
    "Abc.C85_seq_irresolute",
    "Abc.C85_seq_result",
    "Abc.C85_seq_log",
    "Abc.C85_revseq_protocol",
    "Abc.C85_revseq_result",
    "Abc.C85_revseq_two_way_tie"
   ],
   "note": ""
  },
  {
   "property": "C86",
   "status": "proved",
   "theorems": [
    "Abc.C86_describes",
    "Abc.C86_report",
    "Abc.C86_result"
   ],
   "note": ""
  },
  {
   "property": "C87",
   "status": "proved",
   "theorems": [
    "Abc.C87_phragmen_protocol",
    "Abc.C87_phragmen_irresolute",
    "Abc.C87_phragmen_result",
    "Abc.C87_max_load"
   ],
   "note": ""
  },
  {
   "property": "C88",
   "status": "proved",
   "theorems": [
    "Abc.C88_mes_protocol",
    "Abc.C88_mes_irresolute",
    "Abc.C88_increment",
    "Abc.C88_mes_result",
    "Abc.C88_starting_loads"
   ],
   "note": ""
  },
  {
   "property": "C89",
   "status": "proved",
   "theorems": [
    "Abc.C89_greedy_monroe_report",
    "Abc.C89_greedy_monroe_result"
   ],
   "note": ""
  },
  {
   "property": "C90",
   "status": "proved",
   "theorems": [
    "Abc.C90_thiele_report",
    "Abc.C90_no_warning",
    "Abc.C90_lexcc_report",
    "Abc.C90_minimaxav_report",
    "Abc.C90_lexminimaxav_report",
    "Abc.C90_monroe_report",
    "Abc.C90_plain_report",
    "Abc.C90_sorted_report",
    "Abc.C90_leximax_remark"
   ],
   "note": ""
  },
  {
   "property": "C91",
   "status": "proved",
   "theorems": [
    "Abc.C91_maximin_protocol",
    "Abc.C91_maximin_irresolute",
    "Abc.C91_maximin_result",
    "Abc.C91_protocol_value",
    "Abc.C91_protocol_exact"
   ],
   "note": ""
  },
  {
   "property": "C92",
   "status": "proved",
   "theorems": [
    "Abc.C92_names",
    "Abc.C92_prints",
    "Abc.C92_terminal"
   ],
   "note": ""
  },
  {
   "property": "C93",
   "status": "proved",
   "theorems": [
    "Abc.C93_result",
    "Abc.C93_report",
    "Abc.C93_report_brute_force",
    "Abc.C93_cohesive_brute_force",
    "Abc.C93_brute_force_wrong",
    "Abc.C93_priceability",
    "Abc.C93_levels",
    "Abc.C93_full_analysis",
    "Abc.C93_full_analysis_raises"
   ],
   "note": ""
  },
  {
   "property": "C94",
   "status": "proved",
   "theorems": [
    "Abc.C94_separated",
    "Abc.C94_equal_shares",
    "Abc.C94_compute",
    "Abc.C94_python",
    "Abc.C94_large_weights"
   ],
   "note": ""
  },
  {
   "property": "C95",
   "status": "proved",
   "theorems": [
    "Abc.C95_separated",
    "Abc.C95_exclusive",
    "Abc.C95_frame",
    "Abc.C95_history",
    "Abc.C95_arguments",
    "Abc.C95_refines",
    "Abc.C95_add_profile",
    "Abc.C95_add_itself",
    "Abc.C95_copy"
   ],
   "note": ""
  },
  {
   "property": "C96",
   "status": "proved",
   "theorems": [
    "Abc.C96_fraction_weights",
    "Abc.C96_av_exact",
    "Abc.C96_separated",
    "Abc.C96_winning_committees",
    "Abc.C96_unique_winner",
    "Abc.C96_python",
    "Abc.C96_order_of_voters",
    "Abc.C96_lost_tie"
   ],
   "note": ""
  },
  {
   "property": "C97",
   "status": "proved",
   "theorems": [
    "Abc.C97_dhondt_thiele",
    "Abc.C97_dhondt_loads",
    "Abc.C97_sainte_lague",
    "Abc.C97_largest_remainders",
    "Abc.C97_lower_quotas",
    "Abc.C97_divisor",
    "Abc.C97_divisor_compute",
    "Abc.C97_dhondt_quota",
    "Abc.C97_remainders_quota",
    "Abc.C97_dhondt_maximin",
    "Abc.C97_dhondt_minimax",
    "Abc.C97_monroe",
    "Abc.C97_greedy_monroe"
   ],
   "note": ""
  },
  {
   "property": "C98",
   "status": "proved",
   "theorems": [
    "Abc.C98_separable",
    "Abc.C98_thiele",
    "Abc.C98_lexcc",
    "Abc.C98_minimaxav",
    "Abc.C98_add_voters"
   ],
   "note": ""
  },
  {
   "property": "C99",
   "status": "proved",
   "theorems": [
    "Abc.C99_separable",
    "Abc.C99_thiele",
    "Abc.C99_lexcc",
    "Abc.C99_minimaxav",
    "Abc.C99_lexminimaxav",
    "Abc.C99_monroe",
    "Abc.C99_seqThiele",
    "Abc.C99_seqphragmen",
    "Abc.C99_maximin_support",
    "Abc.C99_minimaxphragmen",
    "Abc.C99_enestroem",
    "Abc.C99_consensus",
    "Abc.C99_equal_shares",
    "Abc.C99_equal_shares_av",
    "Abc.C99_equal_shares_none"
   ],
   "note": ""
  },
  {
   "property": "C100",
   "status": "proved",
   "theorems": [
    "Abc.C100_exact_quota",
    "Abc.C100_integer_weights",
    "Abc.C100_any_weights",
    "Abc.C100_exact",
    "Abc.C100_fraction",
    "Abc.C100_float_hare_quota"
   ],
   "note": ""
  },
  {
   "property": "C101",
   "status": "proved",
   "theorems": [
    "Abc.C101_dominance",
    "Abc.C101_replacement"
   ],
   "note": ""
  },
  {
   "property": "C102",
   "status": "proved",
   "theorems": [
    "Abc.C102_approved_first"
   ],
   "note": ""
  },
  {
   "property": "C103",
   "status": "proved",
   "theorems": [
    "Abc.C103_empty_ballots",
    "Abc.C103_electorate",
    "Abc.C103_empty_ballots_matter"
   ],
   "note": ""
  },
  {
   "property": "C104",
   "status": "proved",
   "theorems": [
    "Abc.C104_consensus_separated",
    "Abc.C104_consensus",
    "Abc.C104_enestroem_separated",
    "Abc.C104_enestroem",
    "Abc.C104_compute",
    "Abc.C104_python",
    "Abc.C104_large_weights"
   ],
   "note": ""
  },
  {
   "property": "C105",
   "status": "proved",
   "theorems": [
    "Abc.C105_separable",
    "Abc.C105_priority",
    "Abc.C105_thiele_bruteforce",
    "Abc.C105_leading",
    "Abc.C105_leading_thiele",
    "Abc.C105_string_order"
   ],
   "note": ""
  },
  {
   "property": "C106",
   "status": "proved",
   "theorems": [
    "Abc.C106_strategyproof",
    "Abc.C106_irresolute",
    "Abc.C106_contrast"
   ],
   "note": ""
  },
  {
   "property": "C107",
   "status": "proved",
   "theorems": [
    "Abc.C107_unanimity",
    "Abc.C107_common_committee",
    "Abc.C107_perfect_representation",
    "Abc.C107_contrast"
   ],
   "note": ""
  },
  {
   "property": "C108",
   "status": "proved",
   "theorems": [
    "Abc.C108_seq_approximation",
    "Abc.C108_seq_approximation_exp",
    "Abc.C108_contrast"
   ],
   "note": ""
  },
  {
   "property": "C109",
   "status": "proved",
   "theorems": [
    "Abc.C109_pav_average",
    "Abc.C109_pav_cohesive",
    "Abc.C109_average"
   ],
   "note": ""
  },
  {
   "property": "C110",
   "status": "proved",
   "theorems": [
    "Abc.C110_single_seat",
    "Abc.C110_same_result",
    "Abc.C110_increment",
    "Abc.C110_contrast"
   ],
   "note": ""
  },
  {
   "property": "C111",
   "status": "proved",
   "theorems": [
    "Abc.C111_unapproved_candidates",
    "Abc.C111_irresolute",
    "Abc.C111_contrast"
   ],
   "note": ""
  },
  {
   "property": "C112",
   "status": "proved",
   "theorems": [
    "Abc.C112_new_supporters"
   ],
   "note": ""
  },
  {
   "property": "C113",
   "status": "proved",
   "theorems": [
    "Abc.C113_check_monotone",
    "Abc.C113_default_quota"
   ],
   "note": ""
  },
  {
   "property": "C114",
   "status": "proved",
   "theorems": [
    "Abc.C114_check_electorate",
    "Abc.C114_check_empty_ballots",
    "Abc.C114_check_quota",
    "Abc.C114_default_quota"
   ],
   "note": ""
  },
  {
   "property": "C115",
   "status": "proved",
   "theorems": [
    "Abc.C115_approvals",
    "Abc.C115_voters"
   ],
   "note": ""
  },
  {
   "property": "C116",
   "status": "proved",
   "theorems": [
    "Abc.C116_candidate_leaves"
   ],
   "note": ""
  },
  {
   "property": "C117",
   "status": "proved",
   "theorems": [
    "Abc.C117_loser",
    "Abc.C117_monotone"
   ],
   "note": ""
  },
  {
   "property": "C118",
   "status": "proved",
   "theorems": [
    "Abc.C118_empty_ballots",
    "Abc.C118_electorate"
   ],
   "note": ""
  },
  {
   "property": "C119",
   "status": "proved",
   "theorems": [
    "Abc.C119_candidate_leaves"
   ],
   "note": ""
  },
  {
   "property": "C120",
   "status": "proved",
   "theorems": [
    "Abc.C120_loser",
    "Abc.C120_monotone"
   ],
   "note": ""
  },
  {
   "property": "C121",
   "status": "proved",
   "theorems": [
    "Abc.C121_unapproved_candidates",
    "Abc.C121_contrast"
   ],
   "note": ""
  },
  {
   "property": "C122",
   "status": "proved",
   "theorems": [
    "Abc.C122_indifferent",
    "Abc.C122_resolute",
    "Abc.C122_contrast"
   ],
   "note": ""
  },
  {
   "property": "C123",
   "status": "proved",
   "theorems": [
    "Abc.C123_approval_voting",
    "Abc.C123_single_votes",
    "Abc.C123_everybody",
    "Abc.C123_lexcc_cc",
    "Abc.C123_lexminimaxav_minimaxav",
    "Abc.C123_completion",
    "Abc.C123_contrast"
   ],
   "note": ""
  },
  {
   "property": "C124",
   "status": "proved",
   "theorems": [
    "Abc.C124_unapproved_candidates",
    "Abc.C124_unapproved_quota",
    "Abc.C124_all_candidates",
    "Abc.C124_all_candidates_quota"
   ],
   "note": ""
  },
  {
   "property": "C125",
   "status": "proved",
   "theorems": [
    "Abc.C125_hierarchy",
    "Abc.C125_PJRplus",
    "Abc.C125_leximax_PJRplus",
    "Abc.C125_pav_core",
    "Abc.C125_contrast"
   ],
   "note": ""
  },
  {
   "property": "C126",
   "status": "proved",
   "theorems": [
    "Abc.C126_average",
    "Abc.C126_cohesive"
   ],
   "note": ""
  },
  {
   "property": "C127",
   "status": "proved",
   "theorems": [
    "Abc.C127_priceable",
    "Abc.C127_represents",
    "Abc.C127_seqcc",
    "Abc.C127_pav_welfare",
    "Abc.C127_av",
    "Abc.C127_cc",
    "Abc.C127_contrast"
   ],
   "note": ""
  },
  {
   "property": "C128",
   "status": "proved",
   "theorems": [
    "Abc.C128_droop",
    "Abc.C128_check",
    "Abc.C128_contrast"
   ],
   "note": ""
  },
  {
   "property": "C129",
   "status": "proved",
   "theorems": [
    "Abc.C129_participation",
    "Abc.C129_reinforcement",
    "Abc.C129_cc",
    "Abc.C129_minimaxav",
    "Abc.C129_contrast"
   ],
   "note": ""
  },
  {
   "property": "C130",
   "status": "proved",
   "theorems": [
    "Abc.C130_maximin_support",
    "Abc.C130_maximin_support_tolerance",
    "Abc.C130_contrast"
   ],
   "note": ""
  },
  {
   "property": "C131",
   "status": "proved",
   "theorems": [
    "Abc.C131_ranking",
    "Abc.C131_check",
    "Abc.C131_seqThiele",
    "Abc.C131_maximin_support"
   ],
   "note": ""
  },
  {
   "property": "C132",
   "status": "proved",
   "theorems": [
    "Abc.C132_symmetry",
    "Abc.C132_check",
    "Abc.C132_resolute"
   ],
   "note": ""
  },
  {
   "property": "C133",
   "status": "proved",
   "theorems": [
    "Abc.C133_parts",
    "Abc.C133_equal_shares"
   ],
   "note": ""
  },
  {
   "property": "C134",
   "status": "proved",
   "theorems": [
    "Abc.C134_upper_quota",
    "Abc.C134_party",
    "Abc.C134_lower_quota",
    "Abc.C134_contrast"
   ],
   "note": ""
  }
 ]
}