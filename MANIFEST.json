{
 "claims": [
  {
   "property": "C01",
   "status": "proved",
   "theorems": [
    "Verif.C01_constants"
   ],
   "note": ""
  },
  {
   "property": "C02",
   "status": "proved",
   "theorems": [
    "Verif.C02_tables_after_any_history",
    "Verif.C02_repeat_is_noop",
    "Verif.C02_false_at_full_order"
   ],
   "note": "Holds for sizes up to 2^18; the limit is proved by C02_false_at_full_order."
  },
  {
   "property": "C03",
   "status": "proved",
   "theorems": [
    "Verif.C03_returns_least_power",
    "Verif.C03_npow2",
    "Verif.C03_diverges",
    "Verif.C03_max_returns_one"
   ],
   "note": ""
  },
  {
   "property": "C04",
   "status": "proved",
   "theorems": [
    "Verif.C04_split_reconstructs"
   ],
   "note": ""
  },
  {
   "property": "C05",
   "status": "proved",
   "theorems": [
    "Verif.C05_share_hides"
   ],
   "note": ""
  },
  {
   "property": "C06",
   "status": "proved",
   "theorems": [
    "Verif.C06_shares_reconstruct",
    "Verif.C06_share_hides",
    "Verif.C06_client_moduli",
    "Verif.C06_words_and_bits"
   ],
   "note": ""
  },
  {
   "property": "C07",
   "status": "proved",
   "theorems": [
    "Verif.C07_dealer_triple",
    "Verif.C07_lazy_triple"
   ],
   "note": ""
  },
  {
   "property": "C08",
   "status": "proved",
   "theorems": [
    "Verif.C08_local_dabit",
    "Verif.C08_needs_adjusted_range"
   ],
   "note": ""
  },
  {
   "property": "C09",
   "status": "partial",
   "theorems": [
    "Verif.C09_false_server0_leak",
    "Verif.C09_false_server1_leak",
    "Verif.C09_server0_hiding_partial",
    "Verif.C09_server1_hiding_partial"
   ],
   "note": "False of the code: negation proved with witnesses for both servers; the partial theorems count the draws for all other record values."
  },
  {
   "property": "C10",
   "status": "proved",
   "theorems": [
    "Verif.C10_edabit"
   ],
   "note": ""
  },
  {
   "property": "C11",
   "status": "proved",
   "theorems": [
    "Verif.C11_fragmentation_independent",
    "Verif.C11_false_count_above_int"
   ],
   "note": "Data and stream position for every length below 2^32; the returned int equals the length below 2^31 (C11_false_count_above_int shows the limit)."
  },
  {
   "property": "C12",
   "status": "partial",
   "theorems": [
    "Verif.C12_false_mid_message_error",
    "Verif.C12_error_steps_back",
    "Verif.C12_first_error_partial",
    "Verif.C12_eof_reported_partial"
   ],
   "note": "False of the code for an error after the first byte (C12_false_mid_message_error); the partial theorems cover an error before the first byte and end of stream."
  },
  {
   "property": "C13",
   "status": "proved",
   "theorems": [
    "Verif.C13_scalars_roundtrip",
    "Verif.C13_size_roundtrip",
    "Verif.C13_lengths",
    "Verif.C13_sequence"
   ],
   "note": ""
  },
  {
   "property": "C14",
   "status": "proved",
   "theorems": [
    "Verif.C14_fmpz_roundtrip",
    "Verif.C14_fmpz_unfit",
    "Verif.C14_corshares_roundtrip",
    "Verif.C14_corshare_roundtrip",
    "Verif.C14_triple_roundtrip",
    "Verif.C14_packet_roundtrip",
    "Verif.C14_btriple_roundtrip",
    "Verif.C14_dabit_roundtrip",
    "Verif.C14_edabit_roundtrip",
    "Verif.C14_dabits_roundtrip",
    "Verif.C14_edabits_roundtrip"
   ],
   "note": ""
  },
  {
   "property": "C15",
   "status": "proved",
   "theorems": [
    "Verif.C15_string_roundtrip",
    "Verif.C15_empty_string"
   ],
   "note": ""
  },
  {
   "property": "C16",
   "status": "proved",
   "theorems": [
    "Verif.C16_pair",
    "Verif.C16_bitsum_exact",
    "Verif.C16_invalid_excluded"
   ],
   "note": ""
  },
  {
   "property": "C17",
   "status": "partial",
   "theorems": [
    "Verif.C17_false_zero_mask",
    "Verif.C17_bitsum_mod_partial",
    "Verif.C17_bitsum_pow2_partial"
   ],
   "note": "False of the code when a mask is 0 on a valid row with sender bit 1 (C17_false_zero_mask); the partial theorems give exactness for non-zero masks and for moduli dividing 2^64."
  },
  {
   "property": "C18",
   "status": "proved",
   "theorems": [
    "Verif.C18_pair",
    "Verif.C18_intsum_exact",
    "Verif.C18_too_wide"
   ],
   "note": ""
  },
  {
   "property": "C19",
   "status": "proved",
   "theorems": [
    "Verif.C19_ot_conversion",
    "Verif.C19_false_at_49_bits"
   ],
   "note": "Exact up to 48 bits; C19_false_at_49_bits proves the failure at 49 bits that the property also states."
  },
  {
   "property": "C20",
   "status": "proved",
   "theorems": [
    "Verif.C20_pair",
    "Verif.C20_boolean_triples"
   ],
   "note": ""
  },
  {
   "property": "C21",
   "status": "proved",
   "theorems": [
    "Verif.C21_joint_dabits"
   ],
   "note": ""
  },
  {
   "property": "C22",
   "status": "proved",
   "theorems": [
    "Verif.C22_single_bit_conversion"
   ],
   "note": ""
  },
  {
   "property": "C23",
   "status": "proved",
   "theorems": [
    "Verif.C23_multi_bit_conversion",
    "Verif.C23_undefined_from_33_bits",
    "Verif.C23_wrong_at_32_bits"
   ],
   "note": "Exact up to 31 bits; wrong whenever bit 31 is set at 32 bits; undefined from 33 bits on."
  },
  {
   "property": "C24",
   "status": "proved",
   "theorems": [
    "Verif.C24_multiply",
    "Verif.C24_add"
   ],
   "note": ""
  },
  {
   "property": "C25",
   "status": "proved",
   "theorems": [
    "Verif.C25_stores_in_lockstep"
   ],
   "note": ""
  },
  {
   "property": "C26",
   "status": "proved",
   "theorems": [
    "Verif.C26_checkVar",
    "Verif.C26_checkLinReg"
   ],
   "note": ""
  },
  {
   "property": "C27",
   "status": "proved",
   "theorems": [
    "Verif.C27_wires",
    "Verif.C27_getMulShares",
    "Verif.C27_wf"
   ],
   "note": ""
  },
  {
   "property": "C28",
   "status": "proved",
   "theorems": [
    "Verif.C28_evaluate",
    "Verif.C28_interpolate",
    "Verif.C28_roundtrip",
    "Verif.C28_tables",
    "Verif.C28_bounds"
   ],
   "note": ""
  },
  {
   "property": "C29",
   "status": "proved",
   "theorems": [
    "Verif.C29_eval"
   ],
   "note": ""
  },
  {
   "property": "C30",
   "status": "proved",
   "theorems": [
    "Verif.C30_accept",
    "Verif.C30_sizes"
   ],
   "note": ""
  },
  {
   "property": "C31",
   "status": "proved",
   "theorems": [
    "Verif.C31_soundness"
   ],
   "note": ""
  },
  {
   "property": "C32",
   "status": "proved",
   "theorems": [
    "Verif.C32_view0",
    "Verif.C32_view1",
    "Verif.C32_final0",
    "Verif.C32_final1"
   ],
   "note": ""
  },
  {
   "property": "C33",
   "status": "proved",
   "theorems": [
    "Verif.C33_linreg",
    "Verif.C33_same_verdicts",
    "Verif.C33_same_accumulation"
   ],
   "note": "validate_snips with any circuit, and the whole of VAR and LINREG."
  },
  {
   "property": "C34",
   "status": "proved",
   "theorems": [
    "Verif.C34_freq_intake",
    "Verif.C34_lin_intake",
    "Verif.C34_first_admissible",
    "Verif.C34_keys_once",
    "Verif.C34_later_ignored",
    "Verif.C34_bit_intake",
    "Verif.C34_bit_bad_flag",
    "Verif.C34_var_intake"
   ],
   "note": "Generic intake theorem plus one wrapper per operation (all seven)."
  },
  {
   "property": "C35",
   "status": "proved",
   "theorems": [
    "Verif.C35_bit_sum"
   ],
   "note": ""
  },
  {
   "property": "C36",
   "status": "proved",
   "theorems": [
    "Verif.C36_int_sum",
    "Verif.C36_width"
   ],
   "note": ""
  },
  {
   "property": "C37",
   "status": "proved",
   "theorems": [
    "Verif.C37_xor_op",
    "Verif.C37_honest",
    "Verif.C37_one_sided",
    "Verif.C37_error_unique"
   ],
   "note": ""
  },
  {
   "property": "C38",
   "status": "proved",
   "theorems": [
    "Verif.C38_max_op",
    "Verif.C38_max_exact",
    "Verif.C38_min_exact",
    "Verif.C38_never_beyond",
    "Verif.C38_error_unique"
   ],
   "note": ""
  },
  {
   "property": "C39",
   "status": "partial",
   "theorems": [
    "Verif.C39_all_cancel_crashes",
    "Verif.C39_terminates_partial",
    "Verif.C39_empty_batch_crashes"
   ],
   "note": "False of the code: if all columns cancel (or there are no submissions) server 0 reads out of bounds in every schedule; it terminates otherwise."
  },
  {
   "property": "C40",
   "status": "proved",
   "theorems": [
    "Verif.C40_var_op",
    "Verif.C40_counted_both",
    "Verif.C40_honest_passes",
    "Verif.C40_cheater",
    "Verif.C40_population_variance",
    "Verif.C40_honest"
   ],
   "note": ""
  },
  {
   "property": "C41",
   "status": "proved",
   "theorems": [
    "Verif.C41_exact",
    "Verif.C41_counted",
    "Verif.C41_false_from_24"
   ],
   "note": "Exact up to 23 bits; C41_false_from_24 gives the in-range counterexample the property also states."
  },
  {
   "property": "C42",
   "status": "proved",
   "theorems": [
    "Verif.C42_cheater",
    "Verif.C42_exact",
    "Verif.C42_normal_equations",
    "Verif.C42_honest",
    "Verif.C42_linreg_op"
   ],
   "note": ""
  },
  {
   "property": "C43",
   "status": "proved",
   "theorems": [
    "Verif.C43_least_squares",
    "Verif.C43_singular"
   ],
   "note": "Exact rationals; the final conversion to double is not modelled. A singular system leaves the output unspecified (warning printed by the code)."
  },
  {
   "property": "C44",
   "status": "proved",
   "theorems": [
    "Verif.C44_freq_op",
    "Verif.C44_width",
    "Verif.C44_honest"
   ],
   "note": "Individual and batch branch in full, honest clients end to end; from 31 bits on undefined behaviour (C44_width)."
  },
  {
   "property": "C45",
   "status": "partial",
   "theorems": [
    "Verif.C45_false_two_hot",
    "Verif.C45_weight_partial"
   ],
   "note": "False under the batch check (witness); C45_weight_partial gives what holds."
  },
  {
   "property": "C46",
   "status": "partial",
   "theorems": [
    "Verif.C46_false_unmatched",
    "Verif.C46_both_partial"
   ],
   "note": "False under the batch check (witness); C46_both_partial covers the individual check."
  },
  {
   "property": "C47",
   "status": "partial",
   "theorems": [
    "Verif.C47_init_roundtrip",
    "Verif.C47_session_partial",
    "Verif.C47_main_partial",
    "Verif.C47_false_freq",
    "Verif.C47_false_witness"
   ],
   "note": "Sessions of any length of the main loop, every schedule, starting from the programs' start: every operation answers and leaves both channels empty. False for FREQ when the batch check succeeds: the validity vector stays unread and the next AND/OR reads it as its own (negation proved, with a witness)."
  },
  {
   "property": "C48",
   "status": "proved",
   "theorems": [
    "Verif.C48_freq",
    "Verif.C48_linreg",
    "Verif.C48_max_invalid",
    "Verif.C48_threshold",
    "Verif.C48_var"
   ],
   "note": "Exact threshold plus one statement per operation (all seven)."
  },
  {
   "property": "C49",
   "status": "proved",
   "theorems": [
    "Verif.C49_lin_vals",
    "Verif.C49_lin_range",
    "Verif.C49_lin_wrap",
    "Verif.C49_int_term_lt",
    "Verif.C49_stream",
    "Verif.C49_var_any_stream",
    "Verif.C49_var_range",
    "Verif.C49_var_wrap",
    "Verif.C49_var_vals"
   ],
   "note": "INT_SUM, VAR and LINREG. For 32 to 63 bits VAR and LINREG (degree at least 2) refuse every submission because max_val*max_val wraps (C49_var_wrap, C49_lin_wrap)."
  },
  {
   "property": "C50",
   "status": "partial",
   "theorems": [
    "Verif.C50_cache_server0",
    "Verif.C50_cache_server1",
    "Verif.C50_false_after_freq",
    "Verif.C50_check_point_partial",
    "Verif.C50_refresh"
   ],
   "note": "Proved for every history in which no FREQ batch passes the batch check (cache half: for each server alone, every history). False otherwise: C50_false_after_freq gives servers in step (with particular daBits) and an honest session (two FREQ queries, a VAR query, an unknown message) that ends in every schedule with different check points."
  },
  {
   "property": "C51",
   "status": "proved",
   "theorems": [
    "Verif.C51_terminates",
    "Verif.C51_fork_no_deadlock",
    "Verif.C51_no_fork_small",
    "Verif.C51_no_fork_deadlock",
    "Verif.C51_fork_completes"
   ],
   "note": "With fork: for any list of exchanges, message lengths (also 0), buffer capacity >= 1, transfer sizes and schedule, every schedule ends and a stopped execution is exactly the completed one (contents included). Without fork: deadlock in every schedule when both first messages exceed the buffer; completion when in every exchange one message fits. fork() is assumed to succeed."
  },
  {
   "property": "C52",
   "status": "proved",
   "theorems": [
    "Verif.C52_schedule_independent",
    "Verif.C52_no_infinite_schedule"
   ],
   "note": ""
  },
  {
   "property": "C53",
   "status": "partial",
   "theorems": [
    "Verif.C53_false_int_sum",
    "Verif.C53_false_max",
    "Verif.C53_false_freq",
    "Verif.C53_false_var",
    "Verif.C53_false_lin",
    "Verif.C53_own_values_partial"
   ],
   "note": "False of the code: for INT_SUM, MAX/MIN, FREQ and VAR the key of submission i is the raw draw of value i+1 (LINREG: of its first two features), so each key reveals the next value (negations proved). C53_own_values_partial: a key is not made from blocks used for its own submission (INT_SUM)."
  },
  {
   "property": "C54",
   "status": "proved",
   "theorems": [
    "Verif.C54_length",
    "Verif.C54_charset",
    "Verif.C54_readable",
    "Verif.C54_injective"
   ],
   "note": ""
  },
  {
   "property": "C55",
   "status": "partial",
   "theorems": [
    "Verif.C55_draws",
    "Verif.C55_false_same_draws",
    "Verif.C55_false_main",
    "Verif.C55_false_forged",
    "Verif.C55_false_answer",
    "Verif.C55_uniform_partial"
   ],
   "note": "Full property false: the servers' check point and coefficients are functions of FLINT's fixed initial state; with it a client has any value and any square accepted, up to a whole session answering s - v^2 for one submission. Partial: with a uniform check point at most (2N+1)p^(k+1) of the p^(k+2) choices accept a submission failing the circuit."
  },
  {
   "property": "C56",
   "status": "partial",
   "theorems": [
    "Verif.C56_false_linreg_empty",
    "Verif.C56_false_linreg_wide",
    "Verif.C56_false_var_empty",
    "Verif.C56_false_var_wide",
    "Verif.C56_bit_sum_partial",
    "Verif.C56_int_sum_partial",
    "Verif.C56_xor_partial"
   ],
   "note": "False of the code for VAR/STDDEV and LINREG (both servers fault in every schedule); the partial theorems show that BIT_SUM, INT_SUM and AND/OR return."
  },
  {
   "property": "C57",
   "status": "partial",
   "theorems": [
    "Verif.C57_recv_in",
    "Verif.C57_empty_undefined",
    "Verif.C57_boundary_records",
    "Verif.C57_mid_value_records",
    "Verif.C57_mid_key_records",
    "Verif.C57_boundary_int_sum_partial",
    "Verif.C57_false_int_sum",
    "Verif.C57_false_witness",
    "Verif.C57_false_xor_op",
    "Verif.C57_false_or_witness",
    "Verif.C57_boundary_bit_partial",
    "Verif.C57_false_bit"
   ],
   "note": "False of the code inside a record: INT_SUM counts the disconnected client with a mix of its own and the previous client's value, AND/OR cancels the previous client, BIT_SUM copies the previous bit. The partial theorems cover ends at record boundaries; C57_recv_in ties the intake model to recv_in."
  },
  {
   "property": "C58",
   "status": "proved",
   "theorems": [
    "Verif.C58_triples",
    "Verif.C58_session"
   ],
   "note": "PALISADE is described by the structure PackedHe (ideal packed encryption with one multiplicative level, at least 8192 slots, serialisation that round-trips); everything else is he_triples.cpp at byte level. Bound on n: range of the 32-bit batch counter."
  },
  {
   "property": "C59",
   "status": "proved",
   "theorems": [
    "Verif.C59_xor",
    "Verif.C59_max",
    "Verif.C59_freq",
    "Verif.C59_lin",
    "Verif.C59_var",
    "Verif.C59_keys_distinct",
    "Verif.C59_bit_blocks",
    "Verif.C59_int_blocks",
    "Verif.C59_xor_blocks",
    "Verif.C59_max_blocks",
    "Verif.C59_freq_blocks",
    "Verif.C59_bit_sum",
    "Verif.C59_int_sum"
   ],
   "note": "All nine operations, from the client program's generator to server 0's answer and the answer the client program prints. Keys of a run are distinct if AES is a permutation (C59_keys_distinct). AND/OR/MAX/MIN state exactly when random words cancel. VAR and LINREG at most 31 bits with the stated size bound; printed variance in the reals, coefficients in the rationals. After FREQ the validity bytes stay in the channel (C47)."
  },
  {
   "property": "C60",
   "status": "proved",
   "theorems": [
    "Verif.C60_bounds_iff"
   ],
   "note": "Server 0 faults under every schedule iff server 1 has more distinct keys than server 0 announced."
  },
  {
   "property": "C61",
   "status": "proved",
   "theorems": [
    "Verif.C61_max_rows_fit",
    "Verif.C61_max_overflow"
   ],
   "note": "The claim is the exact limit; beyond it the operation is undefined at both servers."
  },
  {
   "property": "C62",
   "status": "partial",
   "theorems": [
    "Verif.C62_false_shared_engine",
    "Verif.C62_mask_partial"
   ],
   "note": "Full property false: both servers use the same sequence with an offset of 8. Partial: with free masks server 0's shares are compatible with all factors of server 1."
  },
  {
   "property": "C63",
   "status": "proved",
   "theorems": [
    "Verif.C63_bit_sum_server0",
    "Verif.C63_bit_sum_reveals",
    "Verif.C63_bit_sum_server1",
    "Verif.C63_int_sum_server0",
    "Verif.C63_int_sum_reveals",
    "Verif.C63_int_sum_server1",
    "Verif.C63_xor_server1",
    "Verif.C63_xor_server0",
    "Verif.C63_max_server1",
    "Verif.C63_max_server0"
   ],
   "note": "Semi-honest servers, ideal OT, uniform masks and random words. For AND/OR/MAX/MIN at server 0 the clients are honest with distinct keys, the iteration order depends on the keys only, and for MAX/MIN the equality is stated for draws for which the operation ends (C39). VAR, LINREG and FREQ are not covered."
  },
  {
   "property": "C64",
   "status": "partial",
   "theorems": [
    "Verif.C64_lin_memory_leak",
    "Verif.C64_lin_server0",
    "Verif.C64_lin_server1_partial",
    "Verif.C64_var_server0",
    "Verif.C64_var_server1_partial",
    "Verif.C64_mask_bias",
    "Verif.C64_unfair_count",
    "Verif.C64_var_server1_words_partial",
    "Verif.C64_lin_server1_words_partial"
   ],
   "note": "Server 1's half: exact equality of views is refuted for the code's masks (64-bit words reduced modulo p) by C64_mask_bias; it holds for uniform residues (C64_*_server1_partial), and for words whenever no used mask is one of the 126375227162625 unfair words (C64_*_server1_words_partial, C64_unfair_count). In LINREG server 0's uninitialised memory is the same in both runs; C64_lin_memory_leak shows that server 1 does learn it for unmatched keys."
  },
  {
   "property": "C65",
   "status": "partial",
   "theorems": [
    "Verif.C65_freq_lazy_leak",
    "Verif.C65_freq_lazy_values",
    "Verif.C65_freq_server0_partial",
    "Verif.C65_freq_server1_lazy_partial",
    "Verif.C65_freq_server1_joint_partial",
    "Verif.C65_lazy_dabit_one",
    "Verif.C65_freq_lazy_false",
    "Verif.C65_freq_server1_words_partial"
   ],
   "note": "False of the compiled-in lazy setting for server 0: C65_freq_lazy_leak, C65_freq_lazy_values, C65_freq_lazy_false. Proved: server 0 with jointly made daBits; server 1 in both settings, up to the draw r = p-2 (lazy) and the unfair mask words (joint, C65_freq_server1_words_partial)."
  },
  {
   "property": "C66",
   "status": "proved",
   "theorems": [
    "Verif.C66_near",
    "Verif.C66_relative",
    "Verif.C66_range",
    "Verif.C66_false_wrap"
   ],
   "note": "For sums of squares below 2^48 (hence below p); C66_false_wrap shows what happens above. Model of double: 53 bits, nearest even, exponent range shown not to matter."
  },
  {
   "property": "C67",
   "status": "proved",
   "theorems": [
    "Verif.C67_int_sum_server0",
    "Verif.C67_int_sum_server1",
    "Verif.C67_bit_sum_server0",
    "Verif.C67_bit_sum_server1",
    "Verif.C67_max_server0",
    "Verif.C67_max_server1",
    "Verif.C67_freq_server0",
    "Verif.C67_freq_server1",
    "Verif.C67_var_server0",
    "Verif.C67_var_server1",
    "Verif.C67_lin_server0",
    "Verif.C67_lin_server1",
    "Verif.C67_xor_server0",
    "Verif.C67_xor_server1"
   ],
   "note": "All nine operations, both servers. Blocks and bits of the generator are idealised as uniform and independent; the claim is about the first submission of a run only (C53 shows that later ones leak). AND/OR: for a generator that takes the same number of blocks for every bit. VAR/LINREG: at most 31 bits."
  },
  {
   "property": "C68",
   "status": "proved",
   "theorems": [
    "Verif.C68_bit_sum",
    "Verif.C68_int_sum",
    "Verif.C68_xor",
    "Verif.C68_max",
    "Verif.C68_false_stolen_key",
    "Verif.C68_var",
    "Verif.C68_var_values",
    "Verif.C68_linreg",
    "Verif.C68_freq",
    "Verif.C68_var_sound",
    "Verif.C68_linreg_sound",
    "Verif.C68_some_choice"
   ],
   "note": "All nine operations. Assumes that no other submission uses an honest key (false otherwise: C68_false_stolen_key). VAR/STDDEV/LINREG: at most 23 bits, sums below p; check point and coefficients uniform and drawn after the submissions (C55 shows that the code's are predictable). FREQ: the others' contribution is bounded in total, not per client (C45). Others can still make the servers answer 'invalid' by sending to one server only (verdict in the statements)."
  },
  {
   "property": "C69",
   "status": "proved",
   "theorems": [
    "Verif.C69_dichotomy",
    "Verif.C69_products",
    "Verif.C69_h",
    "Verif.C69_triple",
    "Verif.C69_triple_a",
    "Verif.C69_f0",
    "Verif.C69_off_by_one",
    "Verif.C69_var",
    "Verif.C69_linreg",
    "Verif.C69_var_batch",
    "Verif.C69_linreg_batch"
   ],
   "note": "The exceptions (g zero, b zero) are exact cases in which the damaged packets are still genuine; the count over coefficients is for uniform independent draws."
  },
  {
   "property": "C70",
   "status": "partial",
   "theorems": [
    "Verif.C70_atoi",
    "Verif.C70_atoi_neg",
    "Verif.C70_atoi_text",
    "Verif.C70_runs",
    "Verif.C70_reports_partial",
    "Verif.C70_false_freq_wide",
    "Verif.C70_false_three_arguments",
    "Verif.C70_false_no_width",
    "Verif.C70_false_wide",
    "Verif.C70_unknown",
    "Verif.C70_negative"
   ],
   "note": "False for three arguments, for a missing width and for widths from 64 on (C70_false_*). Proved: atoi on decimal strings, every well-formed command line, unrecognised operations, negative numbers of submissions, and the failures that are reported. Sockets are not modelled."
  },
  {
   "property": "C71",
   "status": "partial",
   "theorems": [
    "Verif.C71_answers",
    "Verif.C71_round",
    "Verif.C71_int_any",
    "Verif.C71_int_wider_partial",
    "Verif.C71_false_narrower",
    "Verif.C71_var_wider_partial",
    "Verif.C71_lin_wider_partial",
    "Verif.C71_freq_any",
    "Verif.C71_freq_wider_partial",
    "Verif.C71_false_freq",
    "Verif.C71_false_freq_narrower"
   ],
   "note": "Proved for servers at least as wide as the client (INT_SUM, VAR, STDDEV, LINREG; FREQ up to 3 bits). The full claim is false (C71_false_narrower, C71_false_freq, C71_false_freq_narrower)."
  },
  {
   "property": "C72",
   "status": "partial",
   "theorems": [
    "Verif.C72_start",
    "Verif.C72_same_width_partial",
    "Verif.C72_false_smaller_at_0",
    "Verif.C72_false_left_out",
    "Verif.C72_false_larger_at_0",
    "Verif.C72_false_witness"
   ],
   "note": "False for different widths (C72_false_smaller_at_0, C72_false_left_out, C72_false_larger_at_0, C72_false_witness). C72_start is the command line; C72_same_width_partial gives sessions of servers with the same width, with the restrictions of C47. Two positive widths with the smaller at server 1 are not treated."
  },
  {
   "property": "C73",
   "status": "partial",
   "theorems": [
    "Verif.C73_recv_in",
    "Verif.C73_full_var",
    "Verif.C73_full_max",
    "Verif.C73_full_lin",
    "Verif.C73_full_freq",
    "Verif.C73_var",
    "Verif.C73_var_undefined",
    "Verif.C73_var_op",
    "Verif.C73_max_undefined",
    "Verif.C73_max_boundary_partial",
    "Verif.C73_max_op",
    "Verif.C73_max_invalid",
    "Verif.C73_false_max",
    "Verif.C73_false_max_witness",
    "Verif.C73_lin_machine",
    "Verif.C73_lin_strict",
    "Verif.C73_false_lin",
    "Verif.C73_freq_machine",
    "Verif.C73_freq_boundary_partial",
    "Verif.C73_false_freq"
   ],
   "note": "VAR and STDDEV hold at every point after the fixed part of the first record. False inside a record for MAX/MIN (reads memory never written), LINREG (compares it) and FREQ (stores it); proved at record boundaries for MAX/MIN and FREQ, and for LINREG up to the machine's memory contents."
  },
  {
   "property": "C74",
   "status": "partial",
   "theorems": [
    "Verif.C74_single",
    "Verif.C74_string",
    "Verif.C74_packet_partial",
    "Verif.C74_batch_partial",
    "Verif.C74_corshares_partial",
    "Verif.C74_dabits_partial",
    "Verif.C74_corshare",
    "Verif.C74_triple",
    "Verif.C74_dabit",
    "Verif.C74_edabits_partial",
    "Verif.C74_batch_sent",
    "Verif.C74_shares_sent",
    "Verif.C74_packet_count",
    "Verif.C74_client",
    "Verif.C74_client_sent",
    "Verif.C74_false_short",
    "Verif.C74_false_batch",
    "Verif.C74_false_dabits",
    "Verif.C74_false_max_share",
    "Verif.C74_false_send_out",
    "Verif.C74_false_keys"
   ],
   "note": "False of batches above a million elements (320000 daBits), of MAX records, of partial sends and of send_out (C74_false_*). Proved: all senders when every call takes all (C74_*_sent), and the all-or-prefix contract for the others (C74_*_partial)."
  },
  {
   "property": "C75",
   "status": "partial",
   "theorems": [
    "Verif.C75_sums_partial",
    "Verif.C75_false_max",
    "Verif.C75_false_freq_twice",
    "Verif.C75_false_freq_certain",
    "Verif.C75_false_freq_masked",
    "Verif.C75_false_witness"
   ],
   "note": "False of MAX, MIN and FREQ (C75_false_*; AND and OR in C47_false_freq). Proved for any number of BIT_SUM and INT_SUM queries (C75_sums_partial). VAR and LINREG after FREQ and a refill of the daBit store are not treated."
  },
  {
   "property": "C76",
   "status": "partial",
   "theorems": [
    "Verif.C76_unknown_partial",
    "Verif.C76_false_stray1",
    "Verif.C76_false_stray0",
    "Verif.C76_false_twelve_bytes",
    "Verif.C76_mixed_partial",
    "Verif.C76_false_twelve_bytes_int",
    "Verif.C76_false_stray_other",
    "Verif.C76_false_stray_freq1",
    "Verif.C76_false_stray_freq0"
   ],
   "note": "Proved for unknown messages and for types server 1 does not tell apart; false for a query sent to one server only, with the negation proved for sessions of any length of one operation (not FREQ), for INT_SUM behind an empty BIT_SUM, for BIT_SUM, INT_SUM, VAR, STDDEV or LINREG next to AND, OR, MAX or MIN (deadlock), and next to FREQ with the daBits at hand (deadlock). Not treated: other pairs of different operations, and FREQ that has to make daBits first."
  },
  {
   "property": "C77",
   "status": "partial",
   "theorems": [
    "Verif.C77_false_no_end",
    "Verif.C77_false_at_once",
    "Verif.C77_false_server0",
    "Verif.C77_false_server1",
    "Verif.C77_any_bytes_partial"
   ],
   "note": "The claim is false (C77_false_*). What holds is C77_any_bytes_partial: INT_SUM, AND and OR connections with the promised number of bytes, whatever they are."
  },
  {
   "property": "C78",
   "status": "proved",
   "theorems": [
    "Verif.C78_server0_any",
    "Verif.C78_server1_any_partial",
    "Verif.C78_server0_honest",
    "Verif.C78_server1",
    "Verif.C78_server0"
   ],
   "note": "Ideal OT as in C63. MAX and MIN: for words whose columns do not all cancel (otherwise server 0 crashes, C39). Server 0 learns the aggregate also of a batch that it refuses (C63). With VAR, STDDEV and LINREG: C78_server0_any in full; C78_server1_any_partial takes the masks to be uniform residues, as C64_var_server1_partial does (for the biased masks of the code: C64_mask_bias)."
  },
  {
   "property": "C79",
   "status": "partial",
   "theorems": [
    "Verif.C79_plain_partial",
    "Verif.C79_plain_server0_partial",
    "Verif.C79_false_refill",
    "Verif.C79_server1_partial",
    "Verif.C79_freq0_partial",
    "Verif.C79_false_freq",
    "Verif.C79_var1_partial",
    "Verif.C79_var0_partial",
    "Verif.C79_false_var",
    "Verif.C79_false_linreg",
    "Verif.C79_linreg1_partial",
    "Verif.C79_linreg0_partial",
    "Verif.C79_false_stack",
    "Verif.C79_after_release",
    "Verif.C79_any1_partial",
    "Verif.C79_any0_partial",
    "Verif.C79_any_partial",
    "Verif.C79_false_linreg_session",
    "Verif.C79_false_twice",
    "Verif.C79_false_twice_linreg",
    "Verif.C79_var0_once_partial",
    "Verif.C79_var0_iff",
    "Verif.C79_linreg0_iff",
    "Verif.C79_lin_sizes"
   ],
   "note": "BIT_SUM, INT_SUM, AND, OR, MAX and MIN are balanced; VAR, STDDEV, LINREG, FREQ and the first daBit refill leave memory behind, with exact byte counts for sessions mixing all of them, and LINREG mixes new[] with delete. Server 0 needs that no usable key is announced twice (C79_var0_iff). The full claim is false (C79_false_*)."
  },
  {
   "property": "C80",
   "status": "partial",
   "theorems": [
    "Verif.C80_keys_distinct",
    "Verif.C80_false_undefined",
    "Verif.C80_threshold",
    "Verif.C80_threshold_int",
    "Verif.C80_meant",
    "Verif.C80_bit_sum_partial",
    "Verif.C80_int_sum_partial",
    "Verif.C80_xor_partial",
    "Verif.C80_max_partial",
    "Verif.C80_int_sum_same_partial",
    "Verif.C80_false_in_range",
    "Verif.C80_false_undefined_lin",
    "Verif.C80_lin_partial",
    "Verif.C80_lin_same_partial",
    "Verif.C80_false_lin_few",
    "Verif.C80_threshold_var",
    "Verif.C80_false_undefined_var",
    "Verif.C80_var_partial",
    "Verif.C80_var_same_partial",
    "Verif.C80_false_var_few"
   ],
   "note": "False of the programs as they are: from three submissions (five for INT_SUM, twelve for VAR, STDDEV and LINREG) on they read through a dangling pointer (C80_false_undefined, C80_false_undefined_var, C80_false_undefined_lin); INT_SUM counts client 0, VAR client 2, and LINREG clients 1 and 2, if the word drawn for them is in range (C80_false_in_range, C80_var_partial, C80_lin_partial); with at most three submissions of VAR or LINREG both servers read entry 0 of an empty array (C80_false_var_few, C80_false_lin_few). The partial theorems prove the claim whenever the bytes found there are harmless, which the key the comments have in mind is (C80_meant)."
  },
  {
   "property": "C81",
   "status": "partial",
   "theorems": [
    "Verif.C81_session_partial",
    "Verif.C81_steady_partial",
    "Verif.C81_end_partial",
    "Verif.C81_size_zero",
    "Verif.C81_false"
   ],
   "note": "Full claim false (C81_false): coefficients of a check point that is a root of unity are never freed. C81_session_partial gives the bytes held and lost for every session, C81_steady_partial the claim when no check point is such a root, C81_end_partial the release at the end."
  },
  {
   "property": "C82",
   "status": "partial",
   "theorems": [
    "Verif.C82_before_partial",
    "Verif.C82_false_twice",
    "Verif.C82_false_draw",
    "Verif.C82_exact"
   ],
   "note": "Full claim false (C82_false_twice, C82_false_draw). C82_exact says which sessions are in order; C82_before_partial: those before the first checked packet."
  },
  {
   "property": "C83",
   "status": "partial",
   "theorems": [
    "Verif.C83_place_partial",
    "Verif.C83_order_partial",
    "Verif.C83_progress",
    "Verif.C83_start",
    "Verif.C83_false_overlap",
    "Verif.C83_false_half",
    "Verif.C83_false_same_port",
    "Verif.C83_false_both_shares",
    "Verif.C83_false_impostor",
    "Verif.C83_false_lost",
    "Verif.C83_false_early",
    "Verif.C83_answers_partial",
    "Verif.C83_false_answers"
   ],
   "note": "For the ports and orders of start named in the statement every query reaches both servers at the same place and is answered. False otherwise: overlapping clients, ports equal modulo 2^16, a client on the server port, wrong order of start (negations proved)."
  },
  {
   "property": "C84",
   "status": "proved",
   "theorems": [
    "Verif.C84_session",
    "Verif.C84_freq_last",
    "Verif.C84_deployment"
   ],
   "note": "C84_session: from the command lines of two servers and any list of runs of the client program (all operations but FREQ, each with its own command line) to the answers; C84_freq_last: with FREQ as the last run; C84_deployment: with the order in which the connections are taken (runs do not overlap while they connect, C83). Limits per operation as in C59. VAR and STDDEV: printed variance in the reals with the rounding of doubles as in C41; client and server compiled alike."
  },
  {
   "property": "C85",
   "status": "proved",
   "theorems": [
    "Verif.C85_client",
    "Verif.C85_stack",
    "Verif.C85_degree"
   ],
   "note": "All operations of the client; FLINT's own allocations and those inside standard containers are not modelled. Beyond degree 511 the 8 MiB stack overflows (C85_degree, C85_stack)."
  },
  {
   "property": "C86",
   "status": "proved",
   "theorems": [
    "Verif.C86_nat",
    "Verif.C86_nat_injective",
    "Verif.C86_int",
    "Verif.C86_flag",
    "Verif.C86_freq",
    "Verif.C86_double",
    "Verif.C86_var",
    "Verif.C86_lin",
    "Verif.C86_lin_line",
    "Verif.C86_false_var",
    "Verif.C86_same",
    "Verif.C86_quiet",
    "Verif.C86_refused",
    "Verif.C86_session",
    "Verif.C86_freq_last"
   ],
   "note": "Exact for integers, truth values and histograms; doubles within the rounding to six digits (C86_false_var shows that more is false)."
  }
 ]
}
