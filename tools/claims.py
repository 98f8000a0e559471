A = "Verif.Account."
c("C01", "proved", [A+"operate_moves_exactly", A+"operate_frame"],
  "Hypotheses: 64-bit amounts and no overflow of the credited bucket (the code adds unchecked). Receipts not modelled.")
c("C02", "proved", [A+"operate_never_overdraws", A+"operate_succeeds_iff", A+"checkBalance_iff", A+"operate_wf"], "")
c("C03", "partial", [A+"rejected_operation_changes_nothing_partial", A+"rejected_operation_changes_balance_violated"],
  "The code violates the property for ADD_FREE with an underfunded peer (witness theorem); proved for everything else.")
c("C04", "proved", [A+"run_conserves", A+"step_conserves"], "Hypothesis: initial total plus minted fits in 64 bits.")
c("C17", "proved", [A+"checkPerms_iff"], "")
K = "Verif.KV."
c("C05", "proved", [K+"stack_behaves_as_map", K+"fresh_store_behaves_as_map", K+"getData_returns_live", K+"reachable_wf", K+"simple_cache_behaves_as_value"],
  "Composite and single-value caches; every access goes through the top of the stack.")
c("C06", "proved", [K+"flush_to_parent_invisible", K+"flush_to_database_invisible", K+"simple_cache_behaves_as_value"], "")
c("C07", "proved", [K+"undo_restores", K+"simple_undo_restores"], "")
c("C08", "proved", [K+"disconnect_restores", K+"unregistered_table_fails"], "Block contents are arbitrary lists of writes to arbitrary tables.")
c("C09", "partial", [K+"iteration_lists_live_partial", K+"seek_lists_live_partial", K+"seekUpper_lists_live_partial",
  K+"prefix_iteration_lists_live_partial", K+"ordered_table_iterates", K+"reachable_wfi", K+"iteration_violated", K+"prefix_iteration_violated"],
  "Proved for every table with blob/fixed-width/tail keys (ordered_table_iterates); the code violates the property for tables keyed by variable-length symbols (two witness theorems).")
D = "Verif.Codec."
c("C10", "proved", [D+"db_keys_never_collide", D+"prefix_scan_separates", D+"db_key_order_agrees", D+"prefixes_independent", D+"key_shapes_table"],
  "Key shapes of all tables; C++ operator< of CCdpCoinPair (not lexicographic) excluded from the order claim.")
c("C13", "proved", [D+"varint_write_fits", D+"varint_roundtrip", D+"varint_prefix_free"],
  "The reader also accepts non-canonical encodings (varint_noncanonical_accepted), which the property does not exclude.")
c("C14", "proved", [D+"compact_size_roundtrip", D+"compact_size_canonical"], "")
c("C15", "proved", [D+"fixed_int_roundtrip_and_order"], "Stated for every bit width.")
c("C16", "proved", [D+"userid_roundtrip", D+"userid_injective", D+"userid_unknown_tag_rejected", D+"regid_roundtrip", D+"regid_int_raw_roundtrip"], "")
c("C57", "partial", [D+"userid_decoded_encodable_partial", D+"userid_decoded_not_encodable_violated"], "The code violates it for 33-byte public keys with a bad first byte; everything else re-encodes.")
c("C58", "partial", [D+"userid_encoding_unique_partial", D+"userid_encoding_not_unique_violated"], "The code violates it for registration ids (witness); unique for the other kinds.")
X = "Verif.TxCache."
c("C11", "partial", [X+"no_double_confirmation_partial", X+"repeats_far_apart", X+"duplicate_refusal_sound", X+"recent_transactions_known",
  X+"reward_id_repeats_violated", X+"median_id_repeats_violated", X+"startup_replay_violated", X+"genesis_replay_violated"],
  "Proved for ordinary transactions over connect/disconnect/restart/reload histories; the code violates it for reward and price median ids, genesis transactions, and blocks connected at start-up before the cache is loaded (four witnesses).")
c("C12", "proved", [X+"cache_stack_is_set", X+"has_iff_last_add"], "")
T = "Verif.Transfer."
c("C18", "proved", [T+"transfer_moves_exactly", T+"transfer_conserves", T+"base_transfer_moves_exactly"],
  "Hypotheses: friction ratio <= 100% (governance caps it at 50%), supply of each token fits 64 bits, non-existent accounts hold nothing.")
F = "Verif.Fuel."
c("C19", "partial", [F+"fuel_limit_paid_for", F+"exact_charge_covered", F+"fuelFee_exact", F+"fuel_fee_le_fee_partial", F+"universal_fuel_fee_partial", F+"deploy_fuel_fee_partial",
  F+"fuel_fee_exceeds_fee_violated", F+"fuel_fee_exceeds_fee_default_violated", F+"universal_fuel_fee_exceeds_violated", F+"deploy_fuel_fee_exceeds_violated"],
  "Limit part proved in full. The charge part is violated by the code (float rounding; universal transactions at default settings; deployments at high rates: four witnesses) and proved when the reserve is at least twice the fuel rate.")
c("C59", "partial", [F+"accepted_run_fully_metered", F+"burned_out_run_rejected", F+"work_bounded_partial", F+"unmetered_work_violated"],
  "The meter stops counting after a caught out-of-fuel error (witness); everything else is proved. Burn version R2.")
c("C60", "partial", [F+"fuel_rate_follows_load_partial", F+"rate09_eq", F+"rate11_eq", F+"rate_never_recovers_violated"],
  "Rates below 10 never rise again (violation proved for all continuations).")
B = "Verif.Block."
c("C52", "proved", [B+"balances_follow_schedule", B+"reward_paid_once", B+"block_run_once", B+"disconnect_takes_back", B+"reward_payment_exact"],
  "Disconnection restores the balances before the block (C08).")
c("C53", "partial", [B+"reward_equals_fees_partial", B+"legacy_reward_partial", B+"header_fuel_fee_violated", B+"legacy_reward_violated"],
  "Proved for multi-coin reward transactions and header fuel fees below 2^32; the code reads the header field as 32 bits and never checks the stablecoin fees of single-coin reward transactions (two witnesses).")
c("C61", "partial", [B+"fees_conserved_partial", B+"fees_conserved_violated"],
  "Violated: the unsigned fee field of a force-settle transaction is credited to the producer although nobody is charged. Proved when uncharged transactions carry no fee.")
c("C62", "partial", [B+"Index.index_restored_partial", B+"Index.index_restored_violated", B+"Index.index_collision_violated"],
  "Violated for header fuel fees of 2^32 and more; proved otherwise.")
U = "Verif.Utxo."
c("C20", "proved", [U+"outputs_spent_once"], "Hypothesis: ids of accepted transactions are distinct (C11, hash without collisions).")
c("C21", "partial", [U+"no_value_created_partial", U+"no_value_created_violated", U+"coin_identity_violated"],
  "Violated: output totals wrap at 2^64, and an output of one coin can be consumed as another coin (two witnesses). Proved as an exact supply equation when neither happens.")
c("C22", "proved", [U+"conditions_enforced", U+"checkPrev_meets", U+"met_condition_passes", U+"redeem_script_unique"], "Counting of repeated signatures is C23.")
c("C23", "partial", [U+"distinct_signers_partial", U+"some_member_signed", U+"distinct_signers_violated"],
  "Violated: one signature given m times is counted m times. Proved when no key validates two supplied signatures.")
c("C63", "partial", [U+"check_never_crashes_partial", U+"check_never_crashes_violated"], "Violated by a condition with type byte 0; proved for transactions without one, over all histories.")
c("C64", "partial", [U+"validity_config_independent_partial", U+"validity_config_independent_violated"], "Violated: without the transaction index every UTXO spend is refused.")
V = "Verif.Vote."
c("C24", "partial", [V+"votes_received_are_votes_cast", V+"locked_is_total_of_votes_partial", V+"locked_is_largest_vote", V+"locked_total_violated_before_fork"],
  "Received = cast is proved for all histories. The locked balance equals the total from the second fork on (including the revocation run); before it the code locks the largest vote only (witness, and the exact rule proved).")
c("C25", "partial", [V+"top_delegates_have_most_votes_partial", V+"top_list_spec", V+"index_follows_votes", V+"top_delegates_sound", V+"votes_need_registration", V+"tie_break_violated", V+"voted_before_registration_violated"],
  "Violated: ties are broken by the little endian bytes of the registration id, and a candidate voted for before registering (first version) is missing from the index (two witnesses). Everything else proved for all histories.")
G = "Verif.Delegate."
c("C26", "proved", [G+"shuffle_is_permutation", G+"producer_is_active", G+"consecutive_slots_one_each", G+"round_gives_each_delegate_one_slot", G+"heights_share_shuffle"],
  "Hash outputs arbitrary; block times below 2^32.")
c("C27", "proved", [G+"takeover_only_after_delay", G+"takeover_before_fork", G+"active_constant_between", G+"counted_list_takes_over", G+"delegates_never_empty"],
  "The genesis block must provide at least one delegate. Before the third fork the delay is zero.")
M = "Verif.Merkle."
c("C48", "proved", [M+"root_commits_same_size", M+"different_count_means_duplicate", M+"root_commits_any_size", M+"duplicate_gives_same_root"],
  "Pair hash injective; for different counts also: no transaction id is the hash of two hashes.")
c("C49", "proved", [M+"branch_verifies", M+"branch_leaf_unique", M+"branch_verifies_only"], "Pair hash injective for the uniqueness part.")
c("C50", "proved", [M+"partial_tree_round_trip", M+"partial_tree_round_trip_serialized", M+"extracted_are_in_block"],
  "Also for the serialized form, and soundness for trees from any sender with the block's transaction count.")
H = "Verif.Chain."
c("C51", "proved", [H+"ancestor_lookup_right", H+"loaded_ancestors_right", H+"set_tip_right", H+"fork_point_exists", H+"locator_right", H+"locator_finds_common"],
  "Over all index trees grown by adding blocks, and over indexes loaded in height order.")
c("C65", "partial", [H+"tip_block_after_connect_partial", H+"tip_block_violated", H+"tip_block_after_disconnect_wrong", H+"tip_block_after_load_wrong"],
  "Violated after every start (empty block) and every disconnect (the disconnected block). Holds after connecting a block on a non-empty chain.")
S = "Verif.SigCache."
c("C56", "partial", [S+"cached_equals_direct_partial", S+"direct_never_refused", S+"empty_key_accepts_exactly", S+"cached_equals_direct_violated"],
  "Proved for valid keys, over all histories, with SHA-256 injective. Violated for keys without bytes: the cache entry does not separate key and signature; the accepted strings are characterised exactly.")
c("C66", "partial", [S+"accepted_is_signed_partial", S+"keyless_account_signs_tx_violated", S+"keyless_account_signs_pbft_violated", S+"keyless_account_signs_block_violated", S+"keyless_verdict_differs_violated"],
  "Violated for every contract account: an attacker has a contract verify the attacker's own signature of the transaction hash first. Proved for accounts with valid keys from the second fork on.")
Q = "Verif.Containers."
c("C54", "partial", [Q+"mruset_bounded", Q+"mruset_insert_reports", Q+"mruset_keeps_most_recent", Q+"mruset_resize_keeps_recent", Q+"fifo_refines_queue", Q+"limitedmap_bounded", Q+"limitedmap_content_partial", Q+"limitedmap_resize_keeps_highest", Q+"fifo_documented_order_violated", Q+"fifo_index_violated", Q+"limitedmap_keeps_highest_violated", Q+"limitedmap_index_violated"],
  "Limits, content and mruset order proved over all operation sequences. Violated: limitedmap keeps a new lowest element, CFIFOLimitmap is first-in first-out against its comment, operator[] of both exceeds the limit (no caller uses it that way).")
P = "Verif.Finality."
c("C46", "partial", [P+"final_never_reverted", P+"final_height_never_decreases", P+"reported_final_on_chain", P+"reported_height_violated"],
  "The recorded final block stays on the active chain for ever and only moves forward, over all sequences of blocks, messages, losses and restarts; heights below 2^31, events one at a time. Violated: the height that getfinblockcount reports falls to 0 at a restart.")
c("C47", "partial", [P+"quorum_partial", P+"quorums_intersect", P+"quorum_violated_by_message", P+"quorum_violated_by_next_block", P+"strict_third_violated"],
  "Proved while the number of delegates does not change. Violated after a change: the required number is taken from a block named by the message, or from the tip, not from the block finalised. Two quorums share at least a third, not more than a third.")
L = "Verif.AppAcc."
c("C55", "partial", [L+"funds_follow_history_partial", L+"account_readable_iff_partial", L+"total_changes_by_amount", L+"release_keeps_total", L+"late_timeout_violated", L+"release_overflow_violated"],
  "Free and locked funds as functions of the history, for timeout heights below 2^31. Violated: a timeout of 2^31 or more becomes negative and is due at once; funds whose release would overflow make the account unusable.")
c("C67", "partial", [L+"contract_cannot_stop_node_partial", L+"timeout_zero_stops_node_violated", L+"amount_zero_stops_node_violated", L+"late_timeout_stops_node_violated", L+"long_tag_stops_node_violated"],
  "Violated four ways: asserts that a contract can reach. Proved when timeouts of tag operations are in 1..2^31-1, amounts are not zero and tags fit.")
c("C68", "partial", [L+"transfer_all_partial", L+"transfer_all_violated"],
  "Violated when funds become due in the executing block: the list is made with the height of the tip. Proved otherwise.")
c("C69", "partial", [L+"checked_run_is_backed_partial", L+"negative_amount_violated", L+"large_payments_violated", "Verif.LuaPay.unbacked_credit_violated"],
  "Proved from the second fork on while payments stay below 2^63 in total. Violated otherwise, by a contract that pays itself until the sum reads as negative.")
c("C70", "partial", ["Verif.LuaPay.contract_pays_from_own_account_partial", "Verif.LuaPay.empty_key_loses_coins_violated"],
  "Proved after the second fork. Before, coins paid to an address without key id are lost.")
E = "Verif.Dex."
c("C28", "proved", [E+"place_locks_exactly", E+"system_order_locks_exactly", E+"cancel_succeeds_iff", E+"cancel_returns_the_rest"],
  "Exact effect on every balance and every order, in every state reachable by orders, cancellations, settlements, system orders and other balance operations, supplies below 2^63.")
c("C29", "proved", [E+"settle_conserves", E+"settle_only_by_matcher", E+"deal_moves_exactly", E+"deal_updates_orders"],
  "Totals and the exact effect of a deal with all fees, supplies below 2^63.")
c("C30", "partial", [E+"limit_buyer_never_overpays", E+"limit_seller_never_undersells_partial", E+"limit_seller_to_market_partial", E+"market_tolerance_violated", E+"market_wrap_violated"],
  "Proved for buyers, and for sellers against limit orders up to rounding. Violated for sellers against market orders: the amount may be short by the price of a unit, and the comparison wraps at 64 bits.")
c("C31", "proved", [E+"frozen_is_what_orders_can_spend", E+"cancel_succeeds_iff", E+"gov_cancel_succeeds_iff", E+"checked_deal_is_executed"],
  "Equality, over all histories with supplies below 2^63.")
c("C71", "partial", [E+"place_crash_partial", E+"cancel_never_crashes", E+"settle_crash_partial", E+"place_crash_violated", E+"settle_crash_violated"],
  "Violated by any user: a limit buy order with a high price fails an assertion. Proved when asset amount times price is below 2^64-1 coins (2^63 for deals); the assertion on completed orders always holds.")
O = "Verif.Gov."
c("C38", "partial", [O+"interest_periods_partition", O+"interest_params_in_force_partial", O+"interest_blocks_sum", O+"interest_param_zero_violated"],
  "Every height in exactly one period, over all histories. The parameters are those in force provided A was never set to zero. Violated after A := 0: the next change of B records the default A. The lengths charged leave out one block per change.")
c("C41", "partial", [O+"proposal_executes_at_most_once", O+"executed_by_council", O+"executed_by_two_thirds_partial", O+"last_approval_executes", O+"executed_is_closed", O+"quorum_is_truncated_violated", O+"majority_of_current_council_violated"],
  "Once only: proved over all histories. Two thirds of the council at the time of the request: proved below 383 members. Violated beyond, since the quorum is one byte, and against the council at the time of execution.")
c("C42", "partial", [O+"sys_param_reads_back_partial", O+"cdp_param_reads_back_partial", O+"miner_fee_reads_back", O+"set_params_in_range", O+"defaults_in_range", O+"zero_parameter_violated"],
  "Miner fees fully; system and CDP parameters for values other than zero. Violated for zero, which reads as the default.")
c("C43", "partial", [O+"cdp_thresholds_ordered_partial", O+"cdp_ratios_bounded", O+"cdp_thresholds_violated"],
  "Proved when each proposal changes one ratio. Violated by a proposal that changes two.")
c("C72", "partial", [O+"governor_list_changes_partial", O+"first_governor_violated"],
  "Violated by the first addition, which removes the default governor, and by the last removal, which brings it back. Proved otherwise.")
c("C73", "partial", [O+"bps_positive", O+"bp_count_schedule_partial", O+"scheduled_count_lost_violated"],
  "Proved for one scheduled change at a time. Violated by a second proposal executed before the first has come into force.")
c("C74", "partial", [O+"new_proposal_is_open_partial", O+"proposal_life_overflow_violated"],
  "Proved while height plus life is below 2^32. Violated by the permitted life 2^32-1, after which no ordinary proposal can ever be approved.")
c("C75", "partial", [O+"map_with_order_reads_back", O+"one_pair_keys_ordered", O+"coin_pair_order_violated"],
  "Violated: the order of coin pairs is not asymmetric, a value of WUSD/WICC set after WICC/WUSD is lost and setting it again throws. Proved for keys with a proper order, which the keys of one pair have.")
c("C76", "partial", [O+"one_segment_without_change_partial", O+"redundant_change_violated"],
  "Violated: each period is rounded up to a whole day. Proved for changes outside the charged range.")
N = "Verif.Asset."
c("C32", "proved", [N+"asset_fee_split", N+"operator_fee_split", N+"swap_in_split", N+"spread_sum", N+"asset_fee_affordable"],
  "Exact effect on every balance, for every fee, ratio up to 10000 (1000 for swaps, in doubles) and producer list.")
c("C44", "partial", [N+"deposit_minted_once", N+"mirrored_supply", N+"swap_in_exact", N+"swap_out_exact", N+"deposit_minted_once_violated"],
  "Proved for ids as strings, over all histories of asset operations, with the supply equation and the cap. Violated for ids as transactions: ids are not normalised, so the same hexadecimal id in capitals is minted again.")
c("C45", "proved", [N+"asset_balances_equal_supply", N+"supply_changes_need_the_owner", N+"unmintable_supply_fixed", N+"symbol_issued_once", N+"owner_mint_exact", N+"bank_mint_burn_exact", N+"user_issue_exact"],
  "Over all histories from the first block: user transactions, the bank contract, governance, swaps and arbitrary other balance operations that neither create nor destroy the asset.")
R = "Verif.Price."
c("C39", "partial", [R+"median_characterised", R+"median_order_independent", R+"median_halves_partial", R+"minority_cannot_move_median", R+"median_halves_violated"],
  "Proved for all lists with prices below 2^63 (order independence for all). Violated above: the sum of the two middle prices wraps and the median of equal prices is zero.")
c("C40", "partial", [R+"window_exact_partial", R+"accepted_iff_partial", R+"block_states_medians", R+"one_price_per_feeder", R+"disconnect_restores_partial", R+"window_growth_violated", R+"disconnect_restores_violated"],
  "Proved over all histories of connects, disconnects (on the node or a copy) and restarts with a constant window and feeds first in each block. Violated when the governed window grows, and when a feed follows another kind of transaction, which no rule forbids.")
c("C77", "partial", [R+"nodes_agree_partial", R+"restart_same_partial", R+"nodes_agree_order_violated", R+"window_growth_violated"],
  "Same hypotheses as C40. Violated without them: a restarted node and a running node on the same chain refuse each other's blocks.")
c("C78", "partial", [R+"last_feed_height_partial", R+"last_feed_height_violated", R+"last_feed_height_permission_violated"],
  "Proved while the pair stays tracked, with a constant window, feeds first and prices below 2^63. Violated with feeds after the median transaction and after a permission was withdrawn and returned: the height is zero.")
J = "Verif.Cdp."
c("C33", "proved", [J+"books_agree", J+"totals_exact"],
  "Histories of all CDP transactions, forced liquidation and any other transfers. The totals are 64-bit: exact while the sums fit.")
c("C34", "proved", [J+"pledged_is_collateral", J+"pledge_of_position"],
  "From accounts without pledges; other transactions do not use the pledge operations.")
c("C35", "partial", [J+"debt_and_supply", J+"debt_is_supply_partial", J+"other_supplies", J+"uncovered_interest_violated"],
  "The supply equation is exact for all histories; the code violates the property where interest is minted for an owner who cannot pay it (witness), and holds without such interest and without wrapped penalties.")
c("C36", "partial", [J+"open_covered", J+"grow_covered_partial", J+"redeem_covered", J+"debt_without_collateral_violated", J+"grow_violated", J+"settle_violated"],
  "Opening and withdrawing proved, doubles included. Growing is violated three ways: the sum of old and new debt wraps (unlimited minting), the addition alone is enough, and settlement adds debt regardless.")
c("C37", "partial", [J+"liquidate_fair_partial", J+"penalty_wraps_violated"],
  "Exact effect on every balance for sane parameters (non-return ratio times discount above 1) and debts up to 2^48; violated for a non-return ratio in the permitted range: the penalty wraps.")
c("C79", "partial", [J+"stake_aborts_violated", J+"stake_no_abort_partial", J+"redeem_no_abort", J+"liquidate_no_abort", J+"settle_no_abort_partial", J+"force_no_abort"],
  "Violated: one stake transaction aborts every node. Redemption and forced liquidation proved in full; liquidation under the hypotheses of C37; stake and settlement if the sums fit.")
c("C80", "partial", [J+"settlement_list_partial", J+"settlement_list_one", J+"too_many_violated"],
  "Proved for fewer than 100 due positions, and cut off at 99 for one pair; violated with 100 due in one pair and two in the next: the transaction is refused.")
c("C81", "partial", [J+"candidates_sorted", J+"forced_candidates_partial", J+"force_misses_violated"],
  "Order and exactness in terms of the index key always; in terms of the ratio if there are at least 2e-8 units of collateral per unit of debt. Violated below: the key counts as overflown.")
c("C82", "partial", [J+"safe_kept_partial", J+"safe_kept_saturating", J+"safe_liquidated_violated"],
  "Proved for ratios that fit in 64 bits, and always on processors that saturate; violated on x86, where 2^64 and more becomes zero.")
c("C83", "partial", [J+"open_agree_partial", J+"calcRatio_agree", J+"ratio_agree", J+"rkey_agree", J+"processors_differ_violated"],
  "Opening a position and every ratio agree while they fit in 64 bits; violated beyond.")
c("C84", "proved", [J+"pair_locked", J+"locked_not_forced"],
  "Totals are the sums over the open positions (C33); up to the rounding of doubles.")
W = "Verif.Wasm."
c("C85", "proved", [W+"authority_chain", W+"authority_signed", W+"authorized_signed"],
  "Programs are arbitrary functions of the state, their number and the action. The native contracts' numbers are not those of accounts or of the transaction.")
c("C86", "partial", [W+"native_authority_partial", W+"authority_scope_partial", W+"authority_scope_violated"],
  "Holds at the native contracts; elsewhere a contract must at least have been run for an action with the authority. Violated: a contract that is merely notified can act on itself with the signer's authority.")
c("C87", "proved", [W+"user_coins_safe", W+"unsigned_coins_safe"],
  "For accounts with numbers other than those of contracts and of the transaction itself; the key id of a contract being deployed is unused (see C88). Fees are charged before and not part of the run.")
c("C88", "partial", [W+"coins_conserved_partial", W+"deploy_destroys_violated"],
  "Exact conservation, and the invariants are kept, if the key id of the contract being deployed is unused. Violated otherwise: it is derived from height and index, can be paid before, and deployment resets the account.")
c("C89", "partial", [W+"code_by_maintainer", W+"code_signed", W+"contracts_kept", W+"not_upgradable_violated", W+"no_maintainer_violated"],
  "Authority of the maintainer always needed. Violated: the upgradable flag is ignored, and a contract with maintainer 0 can be taken by a payer not yet registered.")
c("C90", "partial", [W+"data_by_own_code", W+"one_data_partial", W+"one_data_violated"],
  "Only the contract's own program writes. Violated: numbers that differ by a multiple of 2^16 in the index mean the same contract but separate storage, so a one-time payment is made twice.")
c("C91", "proved", [W+"work_bounded", W+"depth_step", W+"endless_fails", W+"notes_enough"],
  "Work counted in executions of receivers; the instructions within a program are limited by time only (C93).")
c("C92", "partial", [W+"votes_by_contract", W+"keyless_authority", W+"ranking_partial", W+"zero_vote_violated"],
  "Control proved. The ranking is violated by a vote of zero, which removes the candidate; kept otherwise.")
c("C93", "partial", [W+"same_outcome_partial", W+"same_outcome_violated"],
  "Violated: execution that takes two seconds fails also when a block is connected. Agreement if all nodes are faster.")
c("C94", "partial", [W+"numbers_partial", W+"numbers_violated", W+"shared_number_violated"],
  "Kept unless the payer is registered by the same transaction; violated then, and the contract's payments are taken from the payer.")
I = "Verif.Wire."
c("C95", "proved", [I+"tx_roundtrip", I+"tx_encoding_injective", I+"tx_read_in_range", I+"wire_complete", I+"received_tx_relays", I+"sane_iff", I+"in_range_iff"],
  "For members in the range of their C++ types, version and height not negative, and no invalid public key as a user id (sane_iff); the exceptions are C57 and C98.")
c("C96", "partial", [I+"preimage_determines_tx_partial", I+"preimage_exists", I+"wire_covered", I+"hash_from_wire", I+"signers_covered",
  I+"signature_not_in_preimage", I+"force_settle_fee_not_signed_violated", I+"negative_version_same_id_violated"],
  "Violated: the fee of a forced settlement is not covered, and a negative version is hashed as another one. Proved otherwise.")
c("C97", "partial", [I+"block_hash_determines_partial", I+"header_hash_covers", I+"header_in_range_iff", I+"header_roundtrip", I+"block_roundtrip", I+"block_hash_ignores_signatures_violated"],
  "Violated: the signatures in a block do not affect its hash. Everything else is determined.")
c("C98", "partial", [I+"received_tx_unharmed_partial", I+"relay_changes_tx_violated", I+"null_proposal_violated"],
  "Violated: a negative version changes on relay, and a proposal request without a proposal dereferences a null pointer.")
c("C99", "proved", [I+"stored_roundtrip", I+"stored_injective", I+"storable_accepted", I+"text_limit_sharp"],
  "For values of the declared C++ types with texts up to 4000000 bytes, heights that are not negative and no invalid public key as a user id.")

IN = "Verif.Intake."
c("C100", "proved", [IN+"active_chain_sound", IN+"final_blocks_stay"],
  "Chain states are named by the chain that led to them; exact undo of blocks is the subject of other properties. Disk errors and restarts are not modelled; commands of the operator are the subject of C166 and C167.")
c("C101", "proved", [IN+"chain_choice", IN+"chain_choice_always"],
  "For verdicts that depend only on the block and the chain below it.")
c("C102", "partial", [IN+"never_stops_partial", IN+"null_prev_stops_violated", IN+"pubkey_producer_stops_violated", IN+"pubkey_orphan_stops_violated"],
  "Violated: a block with null previous hash and height other than 0 fails an assertion, and a block whose first transaction names its sender by public key makes the node shut down, also when it waited as an orphan. For all other blocks proved.")
c("C103", "partial", [IN+"good_block_taken_partial", IN+"altered_copy_violated"],
  "Violated: a copy of a block with another signature has the same hash and, delivered first, makes the node refuse the genuine block and its successors for ever. Proved for blocks whose hash was not delivered before, while nothing is final.")
c("C104", "partial", [IN+"orphan_pool", IN+"nearer_orphan_kept_partial", IN+"far_orphans_block_violated"],
  "Bounds and consistency are proved in full. Making room is violated for heights of 2^31 and more, which are compared as negative numbers; proved below.")

TB = "Verif.TxBase."
c("C105", "partial", [TB+"one_copy_partial", TB+"deploy_overwrites_violated", TB+"deploy_detached_violated"],
  "Proved for contracts at unused addresses and one registration per transaction. Violated: the account of a new contract replaces whatever account is at its predictable address.")
c("C106", "partial", [TB+"needs_permission", TB+"cleared_account_partial", TB+"cleared_cosigner_violated"],
  "Proved for senders. Violated: co-signers of a universal transaction are not asked for permissions.")
c("C107", "partial", [TB+"no_throw_partial", TB+"uia_update_throws_violated"],
  "Violated by the update of an asset from a public key; proved for all other kinds.")
c("C108", "partial", [TB+"sender_signed_partial", TB+"cosigner_signed", TB+"unsigned_violated"],
  "Violated before the second version, where signatures are not checked. The signature cache is the subject of C66.")

MI = "Verif.Mine.Props."
c("C109", "partial", [MI+"own_block_partial", MI+"own_block_default_partial", MI+"edge_refused", MI+"edge_violated", MI+"fuel_violated", MI+"size_violated"],
  "Proved when no transaction of the pool is at the far edge of its height window, fuel fees stay below 2^32 and the size limit leaves room for one byte per transaction (the default limit does). Violated otherwise: the pool takes transactions up to 250 blocks ahead of the next height, validators only up to 250 ahead of the tip, and the producer does not look, so that no block can be made until the transaction is gone.")
c("C110", "partial", [MI+"pool_sound", MI+"pool_takes", MI+"pool_refuses", MI+"dropped_violated"],
  "The invariant is proved in full. Violated: after every block the pool is executed again by ascending id, so that a transaction with a smaller id than the one it depends on is lost.")
c("C111", "partial", [MI+"order_sorted", MI+"items_pool", MI+"settle_last", MI+"less_violated", MI+"settle_violated"],
  "The order is proved for every shape of the tree although the comparison is not asymmetric. Violated: the forced settlement falls into the group of ordinary transactions and, paying nothing, comes last.")
c("C112", "partial", [MI+"told_violated"],
  "Violated: the test for transactions that have left the pool is inverted, the answer is always empty.")

AB = "Verif.Abi.Props."
c("C113", "partial", [AB+"name_value", AB+"name_text_round", AB+"name_round_text", AB+"name_collision", AB+"name_length", AB+"macro_agrees_partial", AB+"macro_violated"],
  "Reader and writer are proved in full. Violated: the macro takes any text, with zero for foreign letters.")
c("C114", "partial", [AB+"varuint_round", AB+"varint_round", AB+"varuint_range", AB+"varuint_defined_partial", AB+"varuint_unique_violated", AB+"varuint_undefined_violated"],
  "The round trip is proved in full. Violated: longer encodings are accepted, bits beyond the 32nd are dropped, and a sixth byte is shifted by 35 places in a 32-bit number.")
c("C115", "partial", [AB+"unpack_round", AB+"pack_prefix_free", AB+"truncated_refused", AB+"memory_bounded_partial", AB+"memory_bounded_violated"],
  "Round trip, prefix freedom and refusal of short data are proved in full. Violated: containers are resized to the announced size before the data is looked at; bounded for bytes that were packed.")
c("C116", "partial", [AB+"add_outcome", AB+"sub_outcome", AB+"mul_exact", AB+"div_exact", AB+"add_supply_partial", AB+"asset_text_partial", AB+"symbol_text_partial", AB+"add_violated", AB+"asset_negative_violated", AB+"asset_sign_violated", AB+"asset_garbage_violated", AB+"symbol_text_violated", AB+"symbol_precision_violated"],
  "Products and quotients are proved in full; sums are exact or refused unless the true sum is beyond 2^64 less the maximum, where they wrap (violated). Texts are proved for non-negative amounts; negative ones cannot be read, foreign characters are accepted, symbols with seven letters lose the last.")
c("C117", "partial", [AB+"accepted_partial", AB+"reader_depth_partial", AB+"recursion_check_void", AB+"recursive_struct_violated", AB+"root_struct_violated"],
  "Violated: the check for circles among struct members never looks at a member (the flag for new nodes is inverted), so a struct that contains itself is accepted and its data is read without end until the deadline; a struct named root is refused. Bases and known types are proved, and depth for interfaces without circles.")
c("C118", "partial", [AB+"json_round_partial", AB+"missing_field_refused", AB+"optional_struct_violated", AB+"optional_field_violated", AB+"long_array_violated"],
  "Proved for arrays of structs below 8192 elements without nulls. Violated: optional structs can be read but not packed, and longer arrays can be packed but not read.")
c("C119", "partial", [AB+"regid_text_partial", AB+"regid_text_injective", AB+"regid_text_violated"],
  "The round trip is proved for heights below 2^31. Violated: texts without a dash, with an index of 2^20 or more, or with a negative index are accepted and collide.")
DO = "Verif.DexOp."
c("C120", "proved", [DO+"owner_lookup_exact", DO+"one_operator_per_account", DO+"owner_test_exact"])
c("C121", "partial", [DO+"changed_only_by_owner_or_governance_partial", DO+"ownership_lost_only_by_transfer_partial", DO+"changed_only_by_owner_or_governance_violated"],
  "Proved below 2^32 registrations. Violated: the 32-bit counter is compared with the largest 64-bit number, so it wraps and the next registration takes over operator 0.")
c("C122", "proved", [DO+"registered_as_asked", DO+"active_only_by_governance"],
  "The fresh number is for fewer than 2^32 registrations; see C121.")
c("C123", "partial", [DO+"terms_in_bounds", DO+"open_mode_valid_partial", DO+"open_list_names_operators_partial", DO+"open_mode_valid_violated", DO+"open_list_names_operators_violated"],
  "Ratios, texts and list sizes are proved in full. Violated: a registration may give any byte as open mode, and 64-bit list entries are looked up by their low 32 bits.")
c("C124", "partial", [DO+"free_account_can_register", DO+"owner_was_named_partial", DO+"owner_agreed_violated"],
  "Registration by a free account is proved. Violated: anybody can register an operator in another account's name, or transfer one to it, and the account can then not register its own.")
NE = "Verif.Net."
c("C125", "proved", [NE+"stream_understood", NE+"pieces_do_not_matter", NE+"sent_is_received"])
c("C126", "proved", [NE+"handled_was_said", NE+"nothing_left_out", NE+"closed_why", NE+"delivered", NE+"work_gets_on"])
c("C127", "proved", [NE+"written_as_queued", NE+"writing_gets_on"])
c("C128", "proved", [NE+"memory_bounded", NE+"memory_bounded_default", NE+"no_standstill"])
c("C129", "partial", [NE+"memory_earned_partial", NE+"memory_earned_violated"],
  "Proved for all messages but the one under way. Violated: a header of 24 bytes, even of another network, makes the node allocate up to 32 MiB at once; the start bytes are looked at only when the data are complete.")
TX = "Verif.Text."
c("C130", "partial", [TX+"alphabet_standard", TX+"base58_anchor", TX+"base58_round_trip", TX+"base58_exact", TX+"check_round_trip", TX+"check_exact", TX+"address_round_trip", TX+"address_unique_partial", TX+"address_no_abort", TX+"addresses_differ", TX+"address_unique_violated"],
  "Base 58 is proved in full. For address strings the uniqueness is up to the first zero byte: anything after it is ignored (violation shown).")
c("C131", "partial", [TX+"hex_standard", TX+"hex_round_trip", TX+"rpc_hex_round_trip", TX+"rpc_hex_exact", TX+"hash_round_trip", TX+"hash_exact_partial", TX+"hex_exact_violated"],
  "Round trips and the strict reader of requests are proved in full; hashes for texts of 64 digits. Violated: shorter and longer texts are taken for hashes, and ParseHex ends silently at the first wrong character.")
c("C132", "partial", [TX+"amount_as_typed_partial", TX+"full_text_understood", TX+"plain_text_understood", TX+"json_amount_partial", TX+"amount_as_typed_violated"],
  "Proved for amounts below 2^63 (JSON numbers: 2^52) and, for the form amount:unit, the default token WICC. Outside violated: other default tokens are replaced by WICC, larger amounts become 2^63 - 1, JSON numbers are rounded.")
c("C133", "partial", [TX+"base64_standard", TX+"base64_round_trip", TX+"base64_injective", TX+"base64_exact_partial", TX+"base64_exact_violated"],
  "Round trip proved in full; uniqueness of the text for texts of the alphabet of a length divisible by four. Violated: anything may follow a whole number of groups.")
FI = "Verif.Files."
c("C134", "partial", [FI+"found_again_partial", FI+"stored_is_found_partial", FI+"undo_is_found_partial", FI+"files_bounded"],
  "Proved as long as no undo file reaches 4 GiB (its size is a 32-bit number).")
c("C135", "partial", [FI+"reindex_recovers_partial", FI+"reindex_same_index_partial", FI+"reindex_keeps_blocks_violated"],
  "Proved for files whose blocks stand one after the other, each once, in particular those of a node that never crashed. Violated: a crash between block and index record leaves a block twice; reindexing then adds up too small a file size, and the next block overwrites the last one.")
WA = "Verif.Wallet."
c("C136", "partial", [WA+"always_loads", WA+"added_key_usable", WA+"first_key_usable", WA+"keys_kept_partial", WA+"keys_kept_forever_partial", WA+"add_result", WA+"encrypt_result", WA+"mining_key_added", WA+"mining_keys_kept", WA+"import_loses_key_violated", WA+"import_aborts_violated", WA+"encrypt_aborts_violated"],
  "Assumes correct decryption, key commitment of the cipher and distinct public keys; the last key is not removed. Violated: in a wallet without encryption importprivkey of a mining key for an own address loses the main key of the address; in an unlocked encrypted wallet it ends the program; a wallet with an address without main key cannot be encrypted (the program ends).")
c("C137", "partial", [WA+"locked_gives_no_key", WA+"locked_after", WA+"file_hides_keys_partial", WA+"file_hides_keys_violated", WA+"memory_hides_keys_partial", WA+"memory_hides_keys_violated", WA+"drop_removes_keys_partial", WA+"drop_removes_keys_violated"],
  "Locking proved in full. File: proved unless the unlock timer or a crash hits within the adding of a key, violated then. Memory: proved after encryption and restart, violated by adding a key. dropminermainkeys: proved without encryption, violated with it.")
c("C138", "partial", [WA+"unlock_iff", WA+"unlock_effect", WA+"no_passphrase_refused", WA+"change_iff", WA+"changed", WA+"refused_change", WA+"refused_change_violated", WA+"stays_encrypted_partial", WA+"stays_encrypted_violated"],
  "Passphrase proved in full under the assumptions on the cryptography. Violated: a refused change locks an unlocked wallet; a wallet without keys is unencrypted again after the restart that follows encryption.")
HA = "Verif.Hash."
c("C139", "proved", [HA+"streamed_is_digest", HA+"digest_is_one_value", HA+"cut_does_not_matter", HA+"reset_is_new", HA+"double_hash_of_row"],
  "The compression functions are parameters; the linked library's SHA256_* and SHA512_* are taken to be streaming hashes of this kind.")
c("C140", "proved", [HA+"hmac_is_standard"],
  "The compression function is a parameter.")
HO = "Verif.Host."
c("C141", "proved", [HO+"add_exact", HO+"sub_exact", HO+"mul_exact", HO+"div_exact", HO+"unsigned_exact"],
  "The branches for 64-bit types of a 64-bit build.")
c("C142", "partial", [HO+"eight_bytes_round_trip", HO+"eight_bytes_back", HO+"four_bytes_back", HO+"four_bytes_round_trip_partial", HO+"four_bytes_violated"],
  "Proved for eight bytes and for four bytes to a number and back. Violated for four bytes: negative numbers and those of more than 32 bits come back as others; exactly the numbers from 0 to 2^32 - 1 survive.")
c("C143", "partial", [HO+"lua_data_is_map_partial", HO+"zero_byte_key_violated", HO+"wasm_data_is_map", HO+"other_contracts_untouched"],
  "Wasm contracts for all keys within the limit, Lua contracts for keys without a zero byte. Violated: Lua keys that differ only after a zero byte are the same record.")
c("C144", "partial", [HO+"lua_calls_never_stop_node", HO+"wasm_key_stops_node_iff_partial", HO+"long_key_stops_node_violated"],
  "Proved for Lua contracts. Violated for wasm contracts: exactly the keys of 505 bytes to 1 MiB fail an assert and end the program of every node that executes the call.")
c("C145", "partial", [HO+"block_hash_is_ancestor_partial", HO+"confirm_height_is_ancestor_partial", HO+"branch_hash_violated", HO+"no_index_violated", HO+"wide_height_violated"],
  "Block hashes: proved when the block extends the active chain and the height has 32 bits. Confirmation heights: proved with the transaction index on. Violated: on a branch the hashes are those of the active chain; without the index nothing is found; heights are cut to 32 bits.")
SY = "Verif.Sync."
c("C146", "proved", [SY+"download_never_fails", SY+"download_one_peer", SY+"download_limit", SY+"download_disconnected", SY+"download_announced", SY+"download_received", SY+"download_send", SY+"download_kept"],
  "Locks are not modelled: each function runs alone.")
c("C147", "partial", [SY+"getblocks_answer", SY+"getblocks_reaches_tip", SY+"getheaders_answer", SY+"getdata_continues", SY+"getblocks_again_violated"],
  "Proved for what the node puts up for announcement. Violated for a repeated question on one connection: blocks already announced are left out, except for the first two.")
c("C148", "partial", [SY+"getdata_answers", SY+"getdata_pauses", SY+"getdata_unknown_block_violated"],
  "Proved for order, completeness over pauses and missing transactions. Violated for blocks that are not here: they get no answer, also not that they were not found.")
c("C149", "proved", [SY+"inventory_complete", SY+"inventory_once", SY+"inventory_not_echoed", SY+"inventory_once_full_violated"],
  "The need for room in the set of known things is shown by a counterexample.")
c("C150", "partial", [SY+"ask_apart", SY+"ask_soon", SY+"ask_in_order", SY+"ask_delay", SY+"ask_delay_violated"],
  "Distance and first request are proved. Violated: each announcement of the same transaction, also by one peer, puts off the next request by two minutes; 50000 of them (the limit of a peer) keep the node from asking others for 69 days.")
c("C151", "proved", [SY+"ban_threshold", SY+"ban_effect", SY+"ban_not_shortened"],
  "Penalties are not negative.")
c("C152", "partial", [SY+"filter_no_false_negative", SY+"filter_keeps", SY+"filter_never_fails", SY+"filter_too_large", SY+"filter_relay_partial", SY+"filter_relay_violated"],
  "Proved for the filter itself. Violated for announcements: the test of transactions is commented out, so that a peer with a filter that is not full is told of none.")
AD = "Verif.Addr."
c("C153", "proved", [AD+"tables_consistent", AD+"getaddr_sound"],
  "Select is represented by the buckets it chooses from: they are not all empty. Identifiers and counters do not overflow.")
c("C154", "partial", [AD+"add_known", AD+"add_forgets_at_most_one", AD+"good_moves", AD+"shrink_victim", AD+"noted", AD+"evicts_oldest_violated", AD+"other_port_violated"],
  "Violated for the choice among the tried addresses: SelectTried returns the position an entry had before it was swapped, so that another one is evicted. Violated for ports: addresses are indexed without the port, so that a second port is neither learned nor tried.")
c("C155", "proved", [AD+"source_group_limited", AD+"tried_group_limited"],
  "The groups and the keyed hashes are parameters.")
AR = "Verif.Arith."
c("C156", "proved", [AR+"represents", AR+"ring_exact", AR+"division", AR+"bitwise", AR+"ordering"],
  "Left out: getdouble and the hexadecimal forms.")
c("C157", "proved", [AR+"compact_means", AR+"compact_truncates", AR+"compact_precision", AR+"compact_stable", AR+"bytes_round_trip"],
  "The meaning of the form is the function exact, in natural numbers without the word arithmetic.")
IP = "Verif.Ip."
c("C158", "proved", [IP+"same_group"],
  "Regions are defined by the 128-bit number of the address.")
c("C159", "partial", [IP+"match_prefix", IP+"match_mask", IP+"match_one", IP+"text_bits", IP+"text_mask", IP+"text_ambiguous_violated"],
  "Violated for the text of subnets given by masks: the mask of an IPv6 address can leave an IPv4 network, of whose mask only the last four bytes are printed. The text of addresses is not modelled.")
c("C160", "partial", [IP+"classes", IP+"service_order", IP+"subnet_order_partial", IP+"multicast_routable_violated", IP+"subnet_order_violated"],
  "Violated: multicast addresses are routable, and the order of subnets does not look at validity while equality does.")

VM = "Verif.Vm."
c("C161", "proved", [VM+"vm_unsigned_numbers", VM+"vm_signed_numbers", VM+"vm_numbers_fit"],
  "The specification is the grammar of section 5.2.2 of the standard. Which of the failed assertions is reported is not modelled.")
c("C162", "proved", [VM+"vm_interpreter_standard", VM+"vm_compiler_standard", VM+"vm_compiler_deterministic", VM+"vm_engines_agree"],
  "The emitted bytes are modelled literally; the model of the x86-64 instructions they use is trusted. Floating point, control flow, locals and calls are not covered.")
c("C163", "partial", [VM+"vm_start_partial", VM+"vm_start_bad_segment", VM+"vm_start_independent_partial", VM+"vm_start_crash", VM+"vm_start_violated"],
  "Violated: the parser accepts up to 65536 declared pages, the machine has 528; the failed growth is ignored and copying a data segment raises a signal outside the guarded section, which ends the node.")
c("C164", "partial", [VM+"vm_grow_partial", VM+"vm_access", VM+"vm_grow_violated"],
  "Violated: requests of 2^31 pages and more are read as negative and shrink the memory.")
c("C165", "partial", [VM+"vm_table_interpreter", VM+"vm_table_compiler_partial", VM+"vm_table_compile_partial", VM+"vm_table_violated"],
  "Violated: a declared size of 2^32 - 1 makes the first range empty; the second label then takes a range from an empty vector (failed assertion or undefined behaviour) and ends the node. Instructions are modelled by position, not by byte.")
c("C166", "partial", [IN+"invalidate_partial", IN+"invalidate_unprotected", IN+"reconsider_undoes", IN+"invalidate_remembered_violated", IN+"invalidate_lasts_violated"],
  "Violated twice: the remembered best chain is dropped only if its last block is flagged, so invalidating a block in its middle can make the node switch to it; and a later block on top of the invalidated branch clears all flags (the test in ProcessForkedChain uses | instead of &) and brings the branch back.")
c("C167", "proved", [IN+"mixed_chain_sound", IN+"mixed_final_stay", IN+"mixed_genesis", IN+"mixed_never_stops", IN+"invalidate_final_violated"],
  "For verdicts that depend only on the block and the chain below it. invalidate_final_violated shows the exception in the statement: invalidateblock does not ask whether the block is final.")
c("C168", "partial", [TX+"base32_rfc", TX+"base32_round_trip", TX+"base32_injective", TX+"base32_valid_partial", TX+"base32_exact_violated"],
  "Violated: after whole groups of eight characters any text is ignored and the whole is still called valid; the same holds after the padding. Proved instead: a valid text begins with the text of its bytes.")
c("C169", "partial", [TX+"onion_round_trip", TX+"onion_accepted_iff", TX+"onion_address", TX+"onion_exact_partial", TX+"onion_exact_violated"],
  "Violated: SetSpecial does not ask for validity, so names with a seventeenth character or with any text after the sixteen are taken for another service's name. Exact for names of 22 characters.")
PE = "Verif.Peer."
c("C170", "proved", [PE+"filter_last", PE+"median_robust"],
  "Values are integers; the sum of the two middle values is taken without overflow. The only caller that reads the median does so for odd sizes, where there is no sum.")
c("C171", "partial", [PE+"clock_unmoved", PE+"clock_defined_partial", PE+"clock_never_warns", PE+"clock_warning_violated", PE+"clock_overflow_violated"],
  "Violated twice. The warning can never be given: the filter's initial 0 counts as a peer that agrees until the filter is full, and then its size is even for ever and nothing is compared (proved for all runs). One peer's time can overflow the subtraction.")
c("C172", "partial", [PE+"relay_true", PE+"relay_forgets", PE+"relay_kept_partial", PE+"relay_kept_violated"],
  "Violated for a transaction relayed again, as the wallet does: the first entry of the queue drops it. Proved for transactions not relayed in the fifteen minutes before. The fallback to the memory pool is not part of this.")
c("C173", "partial", [PE+"ping_time_true", PE+"ping_keepalive", PE+"ping_timeout_partial", PE+"ping_timeout_violated"],
  "Violated: an answer with nonce 0 or a short answer ends the wait, so a peer that only sends these is never disconnected for it (proved for any number of rounds). Proved for peers that do not send these, without operator requests, which restart the wait.")
c("C174", "partial", [PE+"local_best", PE+"local_sound", PE+"local_found", PE+"local_ipv4", PE+"local_tor_hidden", PE+"local_tor_told", PE+"local_tor_violated"],
  "Violated: peers with unroutable addresses are told the Tor address first, and peers on IPv4 can be told it when the other own addresses are IPv6. Proved for peers on IPv6, and for peers on IPv4 if there is an IPv4 address.")
c("C175", "proved", [AD+"Save.save_new", AD+"Save.save_tried", AD+"Save.good_state", AD+"Save.ref_new", AD+"Save.saved_new", AD+"Save.saved_tried"],
  "For every reachable state of the address manager. The bytes of an entry are those of the general serialisation and are not modelled again; the time of the last attempt is not saved by the code and is outside the statement. A file with another number of buckets is not modelled.")
