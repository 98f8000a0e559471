{
 "claims": [
  {
   "property": "C01",
   "status": "proved",
   "theorems": [
    "Verif.Account.operate_moves_exactly",
    "Verif.Account.operate_frame"
   ],
   "note": "Hypotheses: 64-bit amounts and no overflow of the credited bucket (the code adds unchecked). Receipts not modelled."
  },
  {
   "property": "C02",
   "status": "proved",
   "theorems": [
    "Verif.Account.operate_never_overdraws",
    "Verif.Account.operate_succeeds_iff",
    "Verif.Account.checkBalance_iff",
    "Verif.Account.operate_wf"
   ],
   "note": ""
  },
  {
   "property": "C03",
   "status": "partial",
   "theorems": [
    "Verif.Account.rejected_operation_changes_nothing_partial",
    "Verif.Account.rejected_operation_changes_balance_violated"
   ],
   "note": "The code violates the property for ADD_FREE with an underfunded peer (witness theorem); proved for everything else."
  },
  {
   "property": "C04",
   "status": "proved",
   "theorems": [
    "Verif.Account.run_conserves",
    "Verif.Account.step_conserves"
   ],
   "note": "Hypothesis: initial total plus minted fits in 64 bits."
  },
  {
   "property": "C17",
   "status": "proved",
   "theorems": [
    "Verif.Account.checkPerms_iff"
   ],
   "note": ""
  },
  {
   "property": "C05",
   "status": "proved",
   "theorems": [
    "Verif.KV.stack_behaves_as_map",
    "Verif.KV.fresh_store_behaves_as_map",
    "Verif.KV.getData_returns_live",
    "Verif.KV.reachable_wf",
    "Verif.KV.simple_cache_behaves_as_value"
   ],
   "note": "Composite and single-value caches; every access goes through the top of the stack."
  },
  {
   "property": "C06",
   "status": "proved",
   "theorems": [
    "Verif.KV.flush_to_parent_invisible",
    "Verif.KV.flush_to_database_invisible",
    "Verif.KV.simple_cache_behaves_as_value"
   ],
   "note": ""
  },
  {
   "property": "C07",
   "status": "proved",
   "theorems": [
    "Verif.KV.undo_restores",
    "Verif.KV.simple_undo_restores"
   ],
   "note": ""
  },
  {
   "property": "C08",
   "status": "proved",
   "theorems": [
    "Verif.KV.disconnect_restores",
    "Verif.KV.unregistered_table_fails"
   ],
   "note": "Block contents are arbitrary lists of writes to arbitrary tables."
  },
  {
   "property": "C09",
   "status": "partial",
   "theorems": [
    "Verif.KV.iteration_lists_live_partial",
    "Verif.KV.seek_lists_live_partial",
    "Verif.KV.seekUpper_lists_live_partial",
    "Verif.KV.prefix_iteration_lists_live_partial",
    "Verif.KV.ordered_table_iterates",
    "Verif.KV.reachable_wfi",
    "Verif.KV.iteration_violated",
    "Verif.KV.prefix_iteration_violated"
   ],
   "note": "Proved for every table with blob/fixed-width/tail keys (ordered_table_iterates); the code violates the property for tables keyed by variable-length symbols (two witness theorems)."
  },
  {
   "property": "C10",
   "status": "proved",
   "theorems": [
    "Verif.Codec.db_keys_never_collide",
    "Verif.Codec.prefix_scan_separates",
    "Verif.Codec.db_key_order_agrees",
    "Verif.Codec.prefixes_independent",
    "Verif.Codec.key_shapes_table"
   ],
   "note": "Key shapes of all tables; C++ operator< of CCdpCoinPair (not lexicographic) excluded from the order claim."
  },
  {
   "property": "C13",
   "status": "proved",
   "theorems": [
    "Verif.Codec.varint_write_fits",
    "Verif.Codec.varint_roundtrip",
    "Verif.Codec.varint_prefix_free"
   ],
   "note": "The reader also accepts non-canonical encodings (varint_noncanonical_accepted), which the property does not exclude."
  },
  {
   "property": "C14",
   "status": "proved",
   "theorems": [
    "Verif.Codec.compact_size_roundtrip",
    "Verif.Codec.compact_size_canonical"
   ],
   "note": ""
  },
  {
   "property": "C15",
   "status": "proved",
   "theorems": [
    "Verif.Codec.fixed_int_roundtrip_and_order"
   ],
   "note": "Stated for every bit width."
  },
  {
   "property": "C16",
   "status": "proved",
   "theorems": [
    "Verif.Codec.userid_roundtrip",
    "Verif.Codec.userid_injective",
    "Verif.Codec.userid_unknown_tag_rejected",
    "Verif.Codec.regid_roundtrip",
    "Verif.Codec.regid_int_raw_roundtrip"
   ],
   "note": ""
  },
  {
   "property": "C57",
   "status": "partial",
   "theorems": [
    "Verif.Codec.userid_decoded_encodable_partial",
    "Verif.Codec.userid_decoded_not_encodable_violated"
   ],
   "note": "The code violates it for 33-byte public keys with a bad first byte; everything else re-encodes."
  },
  {
   "property": "C58",
   "status": "partial",
   "theorems": [
    "Verif.Codec.userid_encoding_unique_partial",
    "Verif.Codec.userid_encoding_not_unique_violated"
   ],
   "note": "The code violates it for registration ids (witness); unique for the other kinds."
  },
  {
   "property": "C11",
   "status": "partial",
   "theorems": [
    "Verif.TxCache.no_double_confirmation_partial",
    "Verif.TxCache.repeats_far_apart",
    "Verif.TxCache.duplicate_refusal_sound",
    "Verif.TxCache.recent_transactions_known",
    "Verif.TxCache.reward_id_repeats_violated",
    "Verif.TxCache.median_id_repeats_violated",
    "Verif.TxCache.startup_replay_violated",
    "Verif.TxCache.genesis_replay_violated"
   ],
   "note": "Proved for ordinary transactions over connect/disconnect/restart/reload histories; the code violates it for reward and price median ids, genesis transactions, and blocks connected at start-up before the cache is loaded (four witnesses)."
  },
  {
   "property": "C12",
   "status": "proved",
   "theorems": [
    "Verif.TxCache.cache_stack_is_set",
    "Verif.TxCache.has_iff_last_add"
   ],
   "note": ""
  },
  {
   "property": "C18",
   "status": "proved",
   "theorems": [
    "Verif.Transfer.transfer_moves_exactly",
    "Verif.Transfer.transfer_conserves",
    "Verif.Transfer.base_transfer_moves_exactly"
   ],
   "note": "Hypotheses: friction ratio <= 100% (governance caps it at 50%), supply of each token fits 64 bits, non-existent accounts hold nothing."
  },
  {
   "property": "C19",
   "status": "partial",
   "theorems": [
    "Verif.Fuel.fuel_limit_paid_for",
    "Verif.Fuel.exact_charge_covered",
    "Verif.Fuel.fuelFee_exact",
    "Verif.Fuel.fuel_fee_le_fee_partial",
    "Verif.Fuel.universal_fuel_fee_partial",
    "Verif.Fuel.deploy_fuel_fee_partial",
    "Verif.Fuel.fuel_fee_exceeds_fee_violated",
    "Verif.Fuel.fuel_fee_exceeds_fee_default_violated",
    "Verif.Fuel.universal_fuel_fee_exceeds_violated",
    "Verif.Fuel.deploy_fuel_fee_exceeds_violated"
   ],
   "note": "Limit part proved in full. The charge part is violated by the code (float rounding; universal transactions at default settings; deployments at high rates: four witnesses) and proved when the reserve is at least twice the fuel rate."
  },
  {
   "property": "C59",
   "status": "partial",
   "theorems": [
    "Verif.Fuel.accepted_run_fully_metered",
    "Verif.Fuel.burned_out_run_rejected",
    "Verif.Fuel.work_bounded_partial",
    "Verif.Fuel.unmetered_work_violated"
   ],
   "note": "The meter stops counting after a caught out-of-fuel error (witness); everything else is proved. Burn version R2."
  },
  {
   "property": "C60",
   "status": "partial",
   "theorems": [
    "Verif.Fuel.fuel_rate_follows_load_partial",
    "Verif.Fuel.rate09_eq",
    "Verif.Fuel.rate11_eq",
    "Verif.Fuel.rate_never_recovers_violated"
   ],
   "note": "Rates below 10 never rise again (violation proved for all continuations)."
  },
  {
   "property": "C52",
   "status": "proved",
   "theorems": [
    "Verif.Block.balances_follow_schedule",
    "Verif.Block.reward_paid_once",
    "Verif.Block.block_run_once",
    "Verif.Block.disconnect_takes_back",
    "Verif.Block.reward_payment_exact"
   ],
   "note": "Disconnection restores the balances before the block (C08)."
  },
  {
   "property": "C53",
   "status": "partial",
   "theorems": [
    "Verif.Block.reward_equals_fees_partial",
    "Verif.Block.legacy_reward_partial",
    "Verif.Block.header_fuel_fee_violated",
    "Verif.Block.legacy_reward_violated"
   ],
   "note": "Proved for multi-coin reward transactions and header fuel fees below 2^32; the code reads the header field as 32 bits and never checks the stablecoin fees of single-coin reward transactions (two witnesses)."
  },
  {
   "property": "C61",
   "status": "partial",
   "theorems": [
    "Verif.Block.fees_conserved_partial",
    "Verif.Block.fees_conserved_violated"
   ],
   "note": "Violated: the unsigned fee field of a force-settle transaction is credited to the producer although nobody is charged. Proved when uncharged transactions carry no fee."
  },
  {
   "property": "C62",
   "status": "partial",
   "theorems": [
    "Verif.Block.Index.index_restored_partial",
    "Verif.Block.Index.index_restored_violated",
    "Verif.Block.Index.index_collision_violated"
   ],
   "note": "Violated for header fuel fees of 2^32 and more; proved otherwise."
  },
  {
   "property": "C20",
   "status": "proved",
   "theorems": [
    "Verif.Utxo.outputs_spent_once"
   ],
   "note": "Hypothesis: ids of accepted transactions are distinct (C11, hash without collisions)."
  },
  {
   "property": "C21",
   "status": "partial",
   "theorems": [
    "Verif.Utxo.no_value_created_partial",
    "Verif.Utxo.no_value_created_violated",
    "Verif.Utxo.coin_identity_violated"
   ],
   "note": "Violated: output totals wrap at 2^64, and an output of one coin can be consumed as another coin (two witnesses). Proved as an exact supply equation when neither happens."
  },
  {
   "property": "C22",
   "status": "proved",
   "theorems": [
    "Verif.Utxo.conditions_enforced",
    "Verif.Utxo.checkPrev_meets",
    "Verif.Utxo.met_condition_passes",
    "Verif.Utxo.redeem_script_unique"
   ],
   "note": "Counting of repeated signatures is C23."
  },
  {
   "property": "C23",
   "status": "partial",
   "theorems": [
    "Verif.Utxo.distinct_signers_partial",
    "Verif.Utxo.some_member_signed",
    "Verif.Utxo.distinct_signers_violated"
   ],
   "note": "Violated: one signature given m times is counted m times. Proved when no key validates two supplied signatures."
  },
  {
   "property": "C63",
   "status": "partial",
   "theorems": [
    "Verif.Utxo.check_never_crashes_partial",
    "Verif.Utxo.check_never_crashes_violated"
   ],
   "note": "Violated by a condition with type byte 0; proved for transactions without one, over all histories."
  },
  {
   "property": "C64",
   "status": "partial",
   "theorems": [
    "Verif.Utxo.validity_config_independent_partial",
    "Verif.Utxo.validity_config_independent_violated"
   ],
   "note": "Violated: without the transaction index every UTXO spend is refused."
  },
  {
   "property": "C24",
   "status": "partial",
   "theorems": [
    "Verif.Vote.votes_received_are_votes_cast",
    "Verif.Vote.locked_is_total_of_votes_partial",
    "Verif.Vote.locked_is_largest_vote",
    "Verif.Vote.locked_total_violated_before_fork"
   ],
   "note": "Received = cast is proved for all histories. The locked balance equals the total from the second fork on (including the revocation run); before it the code locks the largest vote only (witness, and the exact rule proved)."
  },
  {
   "property": "C25",
   "status": "partial",
   "theorems": [
    "Verif.Vote.top_delegates_have_most_votes_partial",
    "Verif.Vote.top_list_spec",
    "Verif.Vote.index_follows_votes",
    "Verif.Vote.top_delegates_sound",
    "Verif.Vote.votes_need_registration",
    "Verif.Vote.tie_break_violated",
    "Verif.Vote.voted_before_registration_violated"
   ],
   "note": "Violated: ties are broken by the little endian bytes of the registration id, and a candidate voted for before registering (first version) is missing from the index (two witnesses). Everything else proved for all histories."
  },
  {
   "property": "C26",
   "status": "proved",
   "theorems": [
    "Verif.Delegate.shuffle_is_permutation",
    "Verif.Delegate.producer_is_active",
    "Verif.Delegate.consecutive_slots_one_each",
    "Verif.Delegate.round_gives_each_delegate_one_slot",
    "Verif.Delegate.heights_share_shuffle"
   ],
   "note": "Hash outputs arbitrary; block times below 2^32."
  },
  {
   "property": "C27",
   "status": "proved",
   "theorems": [
    "Verif.Delegate.takeover_only_after_delay",
    "Verif.Delegate.takeover_before_fork",
    "Verif.Delegate.active_constant_between",
    "Verif.Delegate.counted_list_takes_over",
    "Verif.Delegate.delegates_never_empty"
   ],
   "note": "The genesis block must provide at least one delegate. Before the third fork the delay is zero."
  },
  {
   "property": "C48",
   "status": "proved",
   "theorems": [
    "Verif.Merkle.root_commits_same_size",
    "Verif.Merkle.different_count_means_duplicate",
    "Verif.Merkle.root_commits_any_size",
    "Verif.Merkle.duplicate_gives_same_root"
   ],
   "note": "Pair hash injective; for different counts also: no transaction id is the hash of two hashes."
  },
  {
   "property": "C49",
   "status": "proved",
   "theorems": [
    "Verif.Merkle.branch_verifies",
    "Verif.Merkle.branch_leaf_unique",
    "Verif.Merkle.branch_verifies_only"
   ],
   "note": "Pair hash injective for the uniqueness part."
  },
  {
   "property": "C50",
   "status": "proved",
   "theorems": [
    "Verif.Merkle.partial_tree_round_trip",
    "Verif.Merkle.partial_tree_round_trip_serialized",
    "Verif.Merkle.extracted_are_in_block"
   ],
   "note": "Also for the serialized form, and soundness for trees from any sender with the block's transaction count."
  },
  {
   "property": "C51",
   "status": "proved",
   "theorems": [
    "Verif.Chain.ancestor_lookup_right",
    "Verif.Chain.loaded_ancestors_right",
    "Verif.Chain.set_tip_right",
    "Verif.Chain.fork_point_exists",
    "Verif.Chain.locator_right",
    "Verif.Chain.locator_finds_common"
   ],
   "note": "Over all index trees grown by adding blocks, and over indexes loaded in height order."
  },
  {
   "property": "C65",
   "status": "partial",
   "theorems": [
    "Verif.Chain.tip_block_after_connect_partial",
    "Verif.Chain.tip_block_violated",
    "Verif.Chain.tip_block_after_disconnect_wrong",
    "Verif.Chain.tip_block_after_load_wrong"
   ],
   "note": "Violated after every start (empty block) and every disconnect (the disconnected block). Holds after connecting a block on a non-empty chain."
  },
  {
   "property": "C56",
   "status": "partial",
   "theorems": [
    "Verif.SigCache.cached_equals_direct_partial",
    "Verif.SigCache.direct_never_refused",
    "Verif.SigCache.empty_key_accepts_exactly",
    "Verif.SigCache.cached_equals_direct_violated"
   ],
   "note": "Proved for valid keys, over all histories, with SHA-256 injective. Violated for keys without bytes: the cache entry does not separate key and signature; the accepted strings are characterised exactly."
  },
  {
   "property": "C66",
   "status": "partial",
   "theorems": [
    "Verif.SigCache.accepted_is_signed_partial",
    "Verif.SigCache.keyless_account_signs_tx_violated",
    "Verif.SigCache.keyless_account_signs_pbft_violated",
    "Verif.SigCache.keyless_account_signs_block_violated",
    "Verif.SigCache.keyless_verdict_differs_violated"
   ],
   "note": "Violated for every contract account: an attacker has a contract verify the attacker's own signature of the transaction hash first. Proved for accounts with valid keys from the second fork on."
  },
  {
   "property": "C54",
   "status": "partial",
   "theorems": [
    "Verif.Containers.mruset_bounded",
    "Verif.Containers.mruset_insert_reports",
    "Verif.Containers.mruset_keeps_most_recent",
    "Verif.Containers.mruset_resize_keeps_recent",
    "Verif.Containers.fifo_refines_queue",
    "Verif.Containers.limitedmap_bounded",
    "Verif.Containers.limitedmap_content_partial",
    "Verif.Containers.limitedmap_resize_keeps_highest",
    "Verif.Containers.fifo_documented_order_violated",
    "Verif.Containers.fifo_index_violated",
    "Verif.Containers.limitedmap_keeps_highest_violated",
    "Verif.Containers.limitedmap_index_violated"
   ],
   "note": "Limits, content and mruset order proved over all operation sequences. Violated: limitedmap keeps a new lowest element, CFIFOLimitmap is first-in first-out against its comment, operator[] of both exceeds the limit (no caller uses it that way)."
  },
  {
   "property": "C46",
   "status": "partial",
   "theorems": [
    "Verif.Finality.final_never_reverted",
    "Verif.Finality.final_height_never_decreases",
    "Verif.Finality.reported_final_on_chain",
    "Verif.Finality.reported_height_violated"
   ],
   "note": "The recorded final block stays on the active chain for ever and only moves forward, over all sequences of blocks, messages, losses and restarts; heights below 2^31, events one at a time. Violated: the height that getfinblockcount reports falls to 0 at a restart."
  },
  {
   "property": "C47",
   "status": "partial",
   "theorems": [
    "Verif.Finality.quorum_partial",
    "Verif.Finality.quorums_intersect",
    "Verif.Finality.quorum_violated_by_message",
    "Verif.Finality.quorum_violated_by_next_block",
    "Verif.Finality.strict_third_violated"
   ],
   "note": "Proved while the number of delegates does not change. Violated after a change: the required number is taken from a block named by the message, or from the tip, not from the block finalised. Two quorums share at least a third, not more than a third."
  },
  {
   "property": "C55",
   "status": "partial",
   "theorems": [
    "Verif.AppAcc.funds_follow_history_partial",
    "Verif.AppAcc.account_readable_iff_partial",
    "Verif.AppAcc.total_changes_by_amount",
    "Verif.AppAcc.release_keeps_total",
    "Verif.AppAcc.late_timeout_violated",
    "Verif.AppAcc.release_overflow_violated"
   ],
   "note": "Free and locked funds as functions of the history, for timeout heights below 2^31. Violated: a timeout of 2^31 or more becomes negative and is due at once; funds whose release would overflow make the account unusable."
  },
  {
   "property": "C67",
   "status": "partial",
   "theorems": [
    "Verif.AppAcc.contract_cannot_stop_node_partial",
    "Verif.AppAcc.timeout_zero_stops_node_violated",
    "Verif.AppAcc.amount_zero_stops_node_violated",
    "Verif.AppAcc.late_timeout_stops_node_violated",
    "Verif.AppAcc.long_tag_stops_node_violated"
   ],
   "note": "Violated four ways: asserts that a contract can reach. Proved when timeouts of tag operations are in 1..2^31-1, amounts are not zero and tags fit."
  },
  {
   "property": "C68",
   "status": "partial",
   "theorems": [
    "Verif.AppAcc.transfer_all_partial",
    "Verif.AppAcc.transfer_all_violated"
   ],
   "note": "Violated when funds become due in the executing block: the list is made with the height of the tip. Proved otherwise."
  },
  {
   "property": "C69",
   "status": "partial",
   "theorems": [
    "Verif.AppAcc.checked_run_is_backed_partial",
    "Verif.AppAcc.negative_amount_violated",
    "Verif.AppAcc.large_payments_violated",
    "Verif.LuaPay.unbacked_credit_violated"
   ],
   "note": "Proved from the second fork on while payments stay below 2^63 in total. Violated otherwise, by a contract that pays itself until the sum reads as negative."
  },
  {
   "property": "C70",
   "status": "partial",
   "theorems": [
    "Verif.LuaPay.contract_pays_from_own_account_partial",
    "Verif.LuaPay.empty_key_loses_coins_violated"
   ],
   "note": "Proved after the second fork. Before, coins paid to an address without key id are lost."
  },
  {
   "property": "C28",
   "status": "proved",
   "theorems": [
    "Verif.Dex.place_locks_exactly",
    "Verif.Dex.system_order_locks_exactly",
    "Verif.Dex.cancel_succeeds_iff",
    "Verif.Dex.cancel_returns_the_rest"
   ],
   "note": "Exact effect on every balance and every order, in every state reachable by orders, cancellations, settlements, system orders and other balance operations, supplies below 2^63."
  },
  {
   "property": "C29",
   "status": "proved",
   "theorems": [
    "Verif.Dex.settle_conserves",
    "Verif.Dex.settle_only_by_matcher",
    "Verif.Dex.deal_moves_exactly",
    "Verif.Dex.deal_updates_orders"
   ],
   "note": "Totals and the exact effect of a deal with all fees, supplies below 2^63."
  },
  {
   "property": "C30",
   "status": "partial",
   "theorems": [
    "Verif.Dex.limit_buyer_never_overpays",
    "Verif.Dex.limit_seller_never_undersells_partial",
    "Verif.Dex.limit_seller_to_market_partial",
    "Verif.Dex.market_tolerance_violated",
    "Verif.Dex.market_wrap_violated"
   ],
   "note": "Proved for buyers, and for sellers against limit orders up to rounding. Violated for sellers against market orders: the amount may be short by the price of a unit, and the comparison wraps at 64 bits."
  },
  {
   "property": "C31",
   "status": "proved",
   "theorems": [
    "Verif.Dex.frozen_is_what_orders_can_spend",
    "Verif.Dex.cancel_succeeds_iff",
    "Verif.Dex.gov_cancel_succeeds_iff",
    "Verif.Dex.checked_deal_is_executed"
   ],
   "note": "Equality, over all histories with supplies below 2^63."
  },
  {
   "property": "C71",
   "status": "partial",
   "theorems": [
    "Verif.Dex.place_crash_partial",
    "Verif.Dex.cancel_never_crashes",
    "Verif.Dex.settle_crash_partial",
    "Verif.Dex.place_crash_violated",
    "Verif.Dex.settle_crash_violated"
   ],
   "note": "Violated by any user: a limit buy order with a high price fails an assertion. Proved when asset amount times price is below 2^64-1 coins (2^63 for deals); the assertion on completed orders always holds."
  },
  {
   "property": "C38",
   "status": "partial",
   "theorems": [
    "Verif.Gov.interest_periods_partition",
    "Verif.Gov.interest_params_in_force_partial",
    "Verif.Gov.interest_blocks_sum",
    "Verif.Gov.interest_param_zero_violated"
   ],
   "note": "Every height in exactly one period, over all histories. The parameters are those in force provided A was never set to zero. Violated after A := 0: the next change of B records the default A. The lengths charged leave out one block per change."
  },
  {
   "property": "C41",
   "status": "partial",
   "theorems": [
    "Verif.Gov.proposal_executes_at_most_once",
    "Verif.Gov.executed_by_council",
    "Verif.Gov.executed_by_two_thirds_partial",
    "Verif.Gov.last_approval_executes",
    "Verif.Gov.executed_is_closed",
    "Verif.Gov.quorum_is_truncated_violated",
    "Verif.Gov.majority_of_current_council_violated"
   ],
   "note": "Once only: proved over all histories. Two thirds of the council at the time of the request: proved below 383 members. Violated beyond, since the quorum is one byte, and against the council at the time of execution."
  },
  {
   "property": "C42",
   "status": "partial",
   "theorems": [
    "Verif.Gov.sys_param_reads_back_partial",
    "Verif.Gov.cdp_param_reads_back_partial",
    "Verif.Gov.miner_fee_reads_back",
    "Verif.Gov.set_params_in_range",
    "Verif.Gov.defaults_in_range",
    "Verif.Gov.zero_parameter_violated"
   ],
   "note": "Miner fees fully; system and CDP parameters for values other than zero. Violated for zero, which reads as the default."
  },
  {
   "property": "C43",
   "status": "partial",
   "theorems": [
    "Verif.Gov.cdp_thresholds_ordered_partial",
    "Verif.Gov.cdp_ratios_bounded",
    "Verif.Gov.cdp_thresholds_violated"
   ],
   "note": "Proved when each proposal changes one ratio. Violated by a proposal that changes two."
  },
  {
   "property": "C72",
   "status": "partial",
   "theorems": [
    "Verif.Gov.governor_list_changes_partial",
    "Verif.Gov.first_governor_violated"
   ],
   "note": "Violated by the first addition, which removes the default governor, and by the last removal, which brings it back. Proved otherwise."
  },
  {
   "property": "C73",
   "status": "partial",
   "theorems": [
    "Verif.Gov.bps_positive",
    "Verif.Gov.bp_count_schedule_partial",
    "Verif.Gov.scheduled_count_lost_violated"
   ],
   "note": "Proved for one scheduled change at a time. Violated by a second proposal executed before the first has come into force."
  },
  {
   "property": "C74",
   "status": "partial",
   "theorems": [
    "Verif.Gov.new_proposal_is_open_partial",
    "Verif.Gov.proposal_life_overflow_violated"
   ],
   "note": "Proved while height plus life is below 2^32. Violated by the permitted life 2^32-1, after which no ordinary proposal can ever be approved."
  },
  {
   "property": "C75",
   "status": "partial",
   "theorems": [
    "Verif.Gov.map_with_order_reads_back",
    "Verif.Gov.one_pair_keys_ordered",
    "Verif.Gov.coin_pair_order_violated"
   ],
   "note": "Violated: the order of coin pairs is not asymmetric, a value of WUSD/WICC set after WICC/WUSD is lost and setting it again throws. Proved for keys with a proper order, which the keys of one pair have."
  },
  {
   "property": "C76",
   "status": "partial",
   "theorems": [
    "Verif.Gov.one_segment_without_change_partial",
    "Verif.Gov.redundant_change_violated"
   ],
   "note": "Violated: each period is rounded up to a whole day. Proved for changes outside the charged range."
  },
  {
   "property": "C32",
   "status": "proved",
   "theorems": [
    "Verif.Asset.asset_fee_split",
    "Verif.Asset.operator_fee_split",
    "Verif.Asset.swap_in_split",
    "Verif.Asset.spread_sum",
    "Verif.Asset.asset_fee_affordable"
   ],
   "note": "Exact effect on every balance, for every fee, ratio up to 10000 (1000 for swaps, in doubles) and producer list."
  },
  {
   "property": "C44",
   "status": "partial",
   "theorems": [
    "Verif.Asset.deposit_minted_once",
    "Verif.Asset.mirrored_supply",
    "Verif.Asset.swap_in_exact",
    "Verif.Asset.swap_out_exact",
    "Verif.Asset.deposit_minted_once_violated"
   ],
   "note": "Proved for ids as strings, over all histories of asset operations, with the supply equation and the cap. Violated for ids as transactions: ids are not normalised, so the same hexadecimal id in capitals is minted again."
  },
  {
   "property": "C45",
   "status": "proved",
   "theorems": [
    "Verif.Asset.asset_balances_equal_supply",
    "Verif.Asset.supply_changes_need_the_owner",
    "Verif.Asset.unmintable_supply_fixed",
    "Verif.Asset.symbol_issued_once",
    "Verif.Asset.owner_mint_exact",
    "Verif.Asset.bank_mint_burn_exact",
    "Verif.Asset.user_issue_exact"
   ],
   "note": "Over all histories from the first block: user transactions, the bank contract, governance, swaps and arbitrary other balance operations that neither create nor destroy the asset."
  },
  {
   "property": "C39",
   "status": "partial",
   "theorems": [
    "Verif.Price.median_characterised",
    "Verif.Price.median_order_independent",
    "Verif.Price.median_halves_partial",
    "Verif.Price.minority_cannot_move_median",
    "Verif.Price.median_halves_violated"
   ],
   "note": "Proved for all lists with prices below 2^63 (order independence for all). Violated above: the sum of the two middle prices wraps and the median of equal prices is zero."
  },
  {
   "property": "C40",
   "status": "partial",
   "theorems": [
    "Verif.Price.window_exact_partial",
    "Verif.Price.accepted_iff_partial",
    "Verif.Price.block_states_medians",
    "Verif.Price.one_price_per_feeder",
    "Verif.Price.disconnect_restores_partial",
    "Verif.Price.window_growth_violated",
    "Verif.Price.disconnect_restores_violated"
   ],
   "note": "Proved over all histories of connects, disconnects (on the node or a copy) and restarts with a constant window and feeds first in each block. Violated when the governed window grows, and when a feed follows another kind of transaction, which no rule forbids."
  },
  {
   "property": "C77",
   "status": "partial",
   "theorems": [
    "Verif.Price.nodes_agree_partial",
    "Verif.Price.restart_same_partial",
    "Verif.Price.nodes_agree_order_violated",
    "Verif.Price.window_growth_violated"
   ],
   "note": "Same hypotheses as C40. Violated without them: a restarted node and a running node on the same chain refuse each other's blocks."
  },
  {
   "property": "C78",
   "status": "partial",
   "theorems": [
    "Verif.Price.last_feed_height_partial",
    "Verif.Price.last_feed_height_violated",
    "Verif.Price.last_feed_height_permission_violated"
   ],
   "note": "Proved while the pair stays tracked, with a constant window, feeds first and prices below 2^63. Violated with feeds after the median transaction and after a permission was withdrawn and returned: the height is zero."
  },
  {
   "property": "C33",
   "status": "proved",
   "theorems": [
    "Verif.Cdp.books_agree",
    "Verif.Cdp.totals_exact"
   ],
   "note": "Histories of all CDP transactions, forced liquidation and any other transfers. The totals are 64-bit: exact while the sums fit."
  },
  {
   "property": "C34",
   "status": "proved",
   "theorems": [
    "Verif.Cdp.pledged_is_collateral",
    "Verif.Cdp.pledge_of_position"
   ],
   "note": "From accounts without pledges; other transactions do not use the pledge operations."
  },
  {
   "property": "C35",
   "status": "partial",
   "theorems": [
    "Verif.Cdp.debt_and_supply",
    "Verif.Cdp.debt_is_supply_partial",
    "Verif.Cdp.other_supplies",
    "Verif.Cdp.uncovered_interest_violated"
   ],
   "note": "The supply equation is exact for all histories; the code violates the property where interest is minted for an owner who cannot pay it (witness), and holds without such interest and without wrapped penalties."
  },
  {
   "property": "C36",
   "status": "partial",
   "theorems": [
    "Verif.Cdp.open_covered",
    "Verif.Cdp.grow_covered_partial",
    "Verif.Cdp.redeem_covered",
    "Verif.Cdp.debt_without_collateral_violated",
    "Verif.Cdp.grow_violated",
    "Verif.Cdp.settle_violated"
   ],
   "note": "Opening and withdrawing proved, doubles included. Growing is violated three ways: the sum of old and new debt wraps (unlimited minting), the addition alone is enough, and settlement adds debt regardless."
  },
  {
   "property": "C37",
   "status": "partial",
   "theorems": [
    "Verif.Cdp.liquidate_fair_partial",
    "Verif.Cdp.penalty_wraps_violated"
   ],
   "note": "Exact effect on every balance for sane parameters (non-return ratio times discount above 1) and debts up to 2^48; violated for a non-return ratio in the permitted range: the penalty wraps."
  },
  {
   "property": "C79",
   "status": "partial",
   "theorems": [
    "Verif.Cdp.stake_aborts_violated",
    "Verif.Cdp.stake_no_abort_partial",
    "Verif.Cdp.redeem_no_abort",
    "Verif.Cdp.liquidate_no_abort",
    "Verif.Cdp.settle_no_abort_partial",
    "Verif.Cdp.force_no_abort"
   ],
   "note": "Violated: one stake transaction aborts every node. Redemption and forced liquidation proved in full; liquidation under the hypotheses of C37; stake and settlement if the sums fit."
  },
  {
   "property": "C80",
   "status": "partial",
   "theorems": [
    "Verif.Cdp.settlement_list_partial",
    "Verif.Cdp.settlement_list_one",
    "Verif.Cdp.too_many_violated"
   ],
   "note": "Proved for fewer than 100 due positions, and cut off at 99 for one pair; violated with 100 due in one pair and two in the next: the transaction is refused."
  },
  {
   "property": "C81",
   "status": "partial",
   "theorems": [
    "Verif.Cdp.candidates_sorted",
    "Verif.Cdp.forced_candidates_partial",
    "Verif.Cdp.force_misses_violated"
   ],
   "note": "Order and exactness in terms of the index key always; in terms of the ratio if there are at least 2e-8 units of collateral per unit of debt. Violated below: the key counts as overflown."
  },
  {
   "property": "C82",
   "status": "partial",
   "theorems": [
    "Verif.Cdp.safe_kept_partial",
    "Verif.Cdp.safe_kept_saturating",
    "Verif.Cdp.safe_liquidated_violated"
   ],
   "note": "Proved for ratios that fit in 64 bits, and always on processors that saturate; violated on x86, where 2^64 and more becomes zero."
  },
  {
   "property": "C83",
   "status": "partial",
   "theorems": [
    "Verif.Cdp.open_agree_partial",
    "Verif.Cdp.calcRatio_agree",
    "Verif.Cdp.ratio_agree",
    "Verif.Cdp.rkey_agree",
    "Verif.Cdp.processors_differ_violated"
   ],
   "note": "Opening a position and every ratio agree while they fit in 64 bits; violated beyond."
  },
  {
   "property": "C84",
   "status": "proved",
   "theorems": [
    "Verif.Cdp.pair_locked",
    "Verif.Cdp.locked_not_forced"
   ],
   "note": "Totals are the sums over the open positions (C33); up to the rounding of doubles."
  },
  {
   "property": "C85",
   "status": "proved",
   "theorems": [
    "Verif.Wasm.authority_chain",
    "Verif.Wasm.authority_signed",
    "Verif.Wasm.authorized_signed"
   ],
   "note": "Programs are arbitrary functions of the state, their number and the action. The native contracts' numbers are not those of accounts or of the transaction."
  },
  {
   "property": "C86",
   "status": "partial",
   "theorems": [
    "Verif.Wasm.native_authority_partial",
    "Verif.Wasm.authority_scope_partial",
    "Verif.Wasm.authority_scope_violated"
   ],
   "note": "Holds at the native contracts; elsewhere a contract must at least have been run for an action with the authority. Violated: a contract that is merely notified can act on itself with the signer's authority."
  },
  {
   "property": "C87",
   "status": "proved",
   "theorems": [
    "Verif.Wasm.user_coins_safe",
    "Verif.Wasm.unsigned_coins_safe"
   ],
   "note": "For accounts with numbers other than those of contracts and of the transaction itself; the key id of a contract being deployed is unused (see C88). Fees are charged before and not part of the run."
  },
  {
   "property": "C88",
   "status": "partial",
   "theorems": [
    "Verif.Wasm.coins_conserved_partial",
    "Verif.Wasm.deploy_destroys_violated"
   ],
   "note": "Exact conservation, and the invariants are kept, if the key id of the contract being deployed is unused. Violated otherwise: it is derived from height and index, can be paid before, and deployment resets the account."
  },
  {
   "property": "C89",
   "status": "partial",
   "theorems": [
    "Verif.Wasm.code_by_maintainer",
    "Verif.Wasm.code_signed",
    "Verif.Wasm.contracts_kept",
    "Verif.Wasm.not_upgradable_violated",
    "Verif.Wasm.no_maintainer_violated"
   ],
   "note": "Authority of the maintainer always needed. Violated: the upgradable flag is ignored, and a contract with maintainer 0 can be taken by a payer not yet registered."
  },
  {
   "property": "C90",
   "status": "partial",
   "theorems": [
    "Verif.Wasm.data_by_own_code",
    "Verif.Wasm.one_data_partial",
    "Verif.Wasm.one_data_violated"
   ],
   "note": "Only the contract's own program writes. Violated: numbers that differ by a multiple of 2^16 in the index mean the same contract but separate storage, so a one-time payment is made twice."
  },
  {
   "property": "C91",
   "status": "proved",
   "theorems": [
    "Verif.Wasm.work_bounded",
    "Verif.Wasm.depth_step",
    "Verif.Wasm.endless_fails",
    "Verif.Wasm.notes_enough"
   ],
   "note": "Work counted in executions of receivers; the instructions within a program are limited by time only (C93)."
  },
  {
   "property": "C92",
   "status": "partial",
   "theorems": [
    "Verif.Wasm.votes_by_contract",
    "Verif.Wasm.keyless_authority",
    "Verif.Wasm.ranking_partial",
    "Verif.Wasm.zero_vote_violated"
   ],
   "note": "Control proved. The ranking is violated by a vote of zero, which removes the candidate; kept otherwise."
  },
  {
   "property": "C93",
   "status": "partial",
   "theorems": [
    "Verif.Wasm.same_outcome_partial",
    "Verif.Wasm.same_outcome_violated"
   ],
   "note": "Violated: execution that takes two seconds fails also when a block is connected. Agreement if all nodes are faster."
  },
  {
   "property": "C94",
   "status": "partial",
   "theorems": [
    "Verif.Wasm.numbers_partial",
    "Verif.Wasm.numbers_violated",
    "Verif.Wasm.shared_number_violated"
   ],
   "note": "Kept unless the payer is registered by the same transaction; violated then, and the contract's payments are taken from the payer."
  },
  {
   "property": "C95",
   "status": "proved",
   "theorems": [
    "Verif.Wire.tx_roundtrip",
    "Verif.Wire.tx_encoding_injective",
    "Verif.Wire.tx_read_in_range",
    "Verif.Wire.wire_complete",
    "Verif.Wire.received_tx_relays",
    "Verif.Wire.sane_iff",
    "Verif.Wire.in_range_iff"
   ],
   "note": "For members in the range of their C++ types, version and height not negative, and no invalid public key as a user id (sane_iff); the exceptions are C57 and C98."
  },
  {
   "property": "C96",
   "status": "partial",
   "theorems": [
    "Verif.Wire.preimage_determines_tx_partial",
    "Verif.Wire.preimage_exists",
    "Verif.Wire.wire_covered",
    "Verif.Wire.hash_from_wire",
    "Verif.Wire.signers_covered",
    "Verif.Wire.signature_not_in_preimage",
    "Verif.Wire.force_settle_fee_not_signed_violated",
    "Verif.Wire.negative_version_same_id_violated"
   ],
   "note": "Violated: the fee of a forced settlement is not covered, and a negative version is hashed as another one. Proved otherwise."
  },
  {
   "property": "C97",
   "status": "partial",
   "theorems": [
    "Verif.Wire.block_hash_determines_partial",
    "Verif.Wire.header_hash_covers",
    "Verif.Wire.header_in_range_iff",
    "Verif.Wire.header_roundtrip",
    "Verif.Wire.block_roundtrip",
    "Verif.Wire.block_hash_ignores_signatures_violated"
   ],
   "note": "Violated: the signatures in a block do not affect its hash. Everything else is determined."
  },
  {
   "property": "C98",
   "status": "partial",
   "theorems": [
    "Verif.Wire.received_tx_unharmed_partial",
    "Verif.Wire.relay_changes_tx_violated",
    "Verif.Wire.null_proposal_violated"
   ],
   "note": "Violated: a negative version changes on relay, and a proposal request without a proposal dereferences a null pointer."
  },
  {
   "property": "C99",
   "status": "proved",
   "theorems": [
    "Verif.Wire.stored_roundtrip",
    "Verif.Wire.stored_injective",
    "Verif.Wire.storable_accepted",
    "Verif.Wire.text_limit_sharp"
   ],
   "note": "For values of the declared C++ types with texts up to 4000000 bytes, heights that are not negative and no invalid public key as a user id."
  },
  {
   "property": "C100",
   "status": "proved",
   "theorems": [
    "Verif.Intake.active_chain_sound",
    "Verif.Intake.final_blocks_stay"
   ],
   "note": "Chain states are named by the chain that led to them; exact undo of blocks is the subject of other properties. Disk errors and restarts are not modelled; commands of the operator are the subject of C166 and C167."
  },
  {
   "property": "C101",
   "status": "proved",
   "theorems": [
    "Verif.Intake.chain_choice",
    "Verif.Intake.chain_choice_always"
   ],
   "note": "For verdicts that depend only on the block and the chain below it."
  },
  {
   "property": "C102",
   "status": "partial",
   "theorems": [
    "Verif.Intake.never_stops_partial",
    "Verif.Intake.null_prev_stops_violated",
    "Verif.Intake.pubkey_producer_stops_violated",
    "Verif.Intake.pubkey_orphan_stops_violated"
   ],
   "note": "Violated: a block with null previous hash and height other than 0 fails an assertion, and a block whose first transaction names its sender by public key makes the node shut down, also when it waited as an orphan. For all other blocks proved."
  },
  {
   "property": "C103",
   "status": "partial",
   "theorems": [
    "Verif.Intake.good_block_taken_partial",
    "Verif.Intake.altered_copy_violated"
   ],
   "note": "Violated: a copy of a block with another signature has the same hash and, delivered first, makes the node refuse the genuine block and its successors for ever. Proved for blocks whose hash was not delivered before, while nothing is final."
  },
  {
   "property": "C104",
   "status": "partial",
   "theorems": [
    "Verif.Intake.orphan_pool",
    "Verif.Intake.nearer_orphan_kept_partial",
    "Verif.Intake.far_orphans_block_violated"
   ],
   "note": "Bounds and consistency are proved in full. Making room is violated for heights of 2^31 and more, which are compared as negative numbers; proved below."
  },
  {
   "property": "C105",
   "status": "partial",
   "theorems": [
    "Verif.TxBase.one_copy_partial",
    "Verif.TxBase.deploy_overwrites_violated",
    "Verif.TxBase.deploy_detached_violated"
   ],
   "note": "Proved for contracts at unused addresses and one registration per transaction. Violated: the account of a new contract replaces whatever account is at its predictable address."
  },
  {
   "property": "C106",
   "status": "partial",
   "theorems": [
    "Verif.TxBase.needs_permission",
    "Verif.TxBase.cleared_account_partial",
    "Verif.TxBase.cleared_cosigner_violated"
   ],
   "note": "Proved for senders. Violated: co-signers of a universal transaction are not asked for permissions."
  },
  {
   "property": "C107",
   "status": "partial",
   "theorems": [
    "Verif.TxBase.no_throw_partial",
    "Verif.TxBase.uia_update_throws_violated"
   ],
   "note": "Violated by the update of an asset from a public key; proved for all other kinds."
  },
  {
   "property": "C108",
   "status": "partial",
   "theorems": [
    "Verif.TxBase.sender_signed_partial",
    "Verif.TxBase.cosigner_signed",
    "Verif.TxBase.unsigned_violated"
   ],
   "note": "Violated before the second version, where signatures are not checked. The signature cache is the subject of C66."
  },
  {
   "property": "C109",
   "status": "partial",
   "theorems": [
    "Verif.Mine.Props.own_block_partial",
    "Verif.Mine.Props.own_block_default_partial",
    "Verif.Mine.Props.edge_refused",
    "Verif.Mine.Props.edge_violated",
    "Verif.Mine.Props.fuel_violated",
    "Verif.Mine.Props.size_violated"
   ],
   "note": "Proved when no transaction of the pool is at the far edge of its height window, fuel fees stay below 2^32 and the size limit leaves room for one byte per transaction (the default limit does). Violated otherwise: the pool takes transactions up to 250 blocks ahead of the next height, validators only up to 250 ahead of the tip, and the producer does not look, so that no block can be made until the transaction is gone."
  },
  {
   "property": "C110",
   "status": "partial",
   "theorems": [
    "Verif.Mine.Props.pool_sound",
    "Verif.Mine.Props.pool_takes",
    "Verif.Mine.Props.pool_refuses",
    "Verif.Mine.Props.dropped_violated"
   ],
   "note": "The invariant is proved in full. Violated: after every block the pool is executed again by ascending id, so that a transaction with a smaller id than the one it depends on is lost."
  },
  {
   "property": "C111",
   "status": "partial",
   "theorems": [
    "Verif.Mine.Props.order_sorted",
    "Verif.Mine.Props.items_pool",
    "Verif.Mine.Props.settle_last",
    "Verif.Mine.Props.less_violated",
    "Verif.Mine.Props.settle_violated"
   ],
   "note": "The order is proved for every shape of the tree although the comparison is not asymmetric. Violated: the forced settlement falls into the group of ordinary transactions and, paying nothing, comes last."
  },
  {
   "property": "C112",
   "status": "partial",
   "theorems": [
    "Verif.Mine.Props.told_violated"
   ],
   "note": "Violated: the test for transactions that have left the pool is inverted, the answer is always empty."
  },
  {
   "property": "C113",
   "status": "partial",
   "theorems": [
    "Verif.Abi.Props.name_value",
    "Verif.Abi.Props.name_text_round",
    "Verif.Abi.Props.name_round_text",
    "Verif.Abi.Props.name_collision",
    "Verif.Abi.Props.name_length",
    "Verif.Abi.Props.macro_agrees_partial",
    "Verif.Abi.Props.macro_violated"
   ],
   "note": "Reader and writer are proved in full. Violated: the macro takes any text, with zero for foreign letters."
  },
  {
   "property": "C114",
   "status": "partial",
   "theorems": [
    "Verif.Abi.Props.varuint_round",
    "Verif.Abi.Props.varint_round",
    "Verif.Abi.Props.varuint_range",
    "Verif.Abi.Props.varuint_defined_partial",
    "Verif.Abi.Props.varuint_unique_violated",
    "Verif.Abi.Props.varuint_undefined_violated"
   ],
   "note": "The round trip is proved in full. Violated: longer encodings are accepted, bits beyond the 32nd are dropped, and a sixth byte is shifted by 35 places in a 32-bit number."
  },
  {
   "property": "C115",
   "status": "partial",
   "theorems": [
    "Verif.Abi.Props.unpack_round",
    "Verif.Abi.Props.pack_prefix_free",
    "Verif.Abi.Props.truncated_refused",
    "Verif.Abi.Props.memory_bounded_partial",
    "Verif.Abi.Props.memory_bounded_violated"
   ],
   "note": "Round trip, prefix freedom and refusal of short data are proved in full. Violated: containers are resized to the announced size before the data is looked at; bounded for bytes that were packed."
  },
  {
   "property": "C116",
   "status": "partial",
   "theorems": [
    "Verif.Abi.Props.add_outcome",
    "Verif.Abi.Props.sub_outcome",
    "Verif.Abi.Props.mul_exact",
    "Verif.Abi.Props.div_exact",
    "Verif.Abi.Props.add_supply_partial",
    "Verif.Abi.Props.asset_text_partial",
    "Verif.Abi.Props.symbol_text_partial",
    "Verif.Abi.Props.add_violated",
    "Verif.Abi.Props.asset_negative_violated",
    "Verif.Abi.Props.asset_sign_violated",
    "Verif.Abi.Props.asset_garbage_violated",
    "Verif.Abi.Props.symbol_text_violated",
    "Verif.Abi.Props.symbol_precision_violated"
   ],
   "note": "Products and quotients are proved in full; sums are exact or refused unless the true sum is beyond 2^64 less the maximum, where they wrap (violated). Texts are proved for non-negative amounts; negative ones cannot be read, foreign characters are accepted, symbols with seven letters lose the last."
  },
  {
   "property": "C117",
   "status": "partial",
   "theorems": [
    "Verif.Abi.Props.accepted_partial",
    "Verif.Abi.Props.reader_depth_partial",
    "Verif.Abi.Props.recursion_check_void",
    "Verif.Abi.Props.recursive_struct_violated",
    "Verif.Abi.Props.root_struct_violated"
   ],
   "note": "Violated: the check for circles among struct members never looks at a member (the flag for new nodes is inverted), so a struct that contains itself is accepted and its data is read without end until the deadline; a struct named root is refused. Bases and known types are proved, and depth for interfaces without circles."
  },
  {
   "property": "C118",
   "status": "partial",
   "theorems": [
    "Verif.Abi.Props.json_round_partial",
    "Verif.Abi.Props.missing_field_refused",
    "Verif.Abi.Props.optional_struct_violated",
    "Verif.Abi.Props.optional_field_violated",
    "Verif.Abi.Props.long_array_violated"
   ],
   "note": "Proved for arrays of structs below 8192 elements without nulls. Violated: optional structs can be read but not packed, and longer arrays can be packed but not read."
  },
  {
   "property": "C119",
   "status": "partial",
   "theorems": [
    "Verif.Abi.Props.regid_text_partial",
    "Verif.Abi.Props.regid_text_injective",
    "Verif.Abi.Props.regid_text_violated"
   ],
   "note": "The round trip is proved for heights below 2^31. Violated: texts without a dash, with an index of 2^20 or more, or with a negative index are accepted and collide."
  },
  {
   "property": "C120",
   "status": "proved",
   "theorems": [
    "Verif.DexOp.owner_lookup_exact",
    "Verif.DexOp.one_operator_per_account",
    "Verif.DexOp.owner_test_exact"
   ],
   "note": ""
  },
  {
   "property": "C121",
   "status": "partial",
   "theorems": [
    "Verif.DexOp.changed_only_by_owner_or_governance_partial",
    "Verif.DexOp.ownership_lost_only_by_transfer_partial",
    "Verif.DexOp.changed_only_by_owner_or_governance_violated"
   ],
   "note": "Proved below 2^32 registrations. Violated: the 32-bit counter is compared with the largest 64-bit number, so it wraps and the next registration takes over operator 0."
  },
  {
   "property": "C122",
   "status": "proved",
   "theorems": [
    "Verif.DexOp.registered_as_asked",
    "Verif.DexOp.active_only_by_governance"
   ],
   "note": "The fresh number is for fewer than 2^32 registrations; see C121."
  },
  {
   "property": "C123",
   "status": "partial",
   "theorems": [
    "Verif.DexOp.terms_in_bounds",
    "Verif.DexOp.open_mode_valid_partial",
    "Verif.DexOp.open_list_names_operators_partial",
    "Verif.DexOp.open_mode_valid_violated",
    "Verif.DexOp.open_list_names_operators_violated"
   ],
   "note": "Ratios, texts and list sizes are proved in full. Violated: a registration may give any byte as open mode, and 64-bit list entries are looked up by their low 32 bits."
  },
  {
   "property": "C124",
   "status": "partial",
   "theorems": [
    "Verif.DexOp.free_account_can_register",
    "Verif.DexOp.owner_was_named_partial",
    "Verif.DexOp.owner_agreed_violated"
   ],
   "note": "Registration by a free account is proved. Violated: anybody can register an operator in another account's name, or transfer one to it, and the account can then not register its own."
  },
  {
   "property": "C125",
   "status": "proved",
   "theorems": [
    "Verif.Net.stream_understood",
    "Verif.Net.pieces_do_not_matter",
    "Verif.Net.sent_is_received"
   ],
   "note": ""
  },
  {
   "property": "C126",
   "status": "proved",
   "theorems": [
    "Verif.Net.handled_was_said",
    "Verif.Net.nothing_left_out",
    "Verif.Net.closed_why",
    "Verif.Net.delivered",
    "Verif.Net.work_gets_on"
   ],
   "note": ""
  },
  {
   "property": "C127",
   "status": "proved",
   "theorems": [
    "Verif.Net.written_as_queued",
    "Verif.Net.writing_gets_on"
   ],
   "note": ""
  },
  {
   "property": "C128",
   "status": "proved",
   "theorems": [
    "Verif.Net.memory_bounded",
    "Verif.Net.memory_bounded_default",
    "Verif.Net.no_standstill"
   ],
   "note": ""
  },
  {
   "property": "C129",
   "status": "partial",
   "theorems": [
    "Verif.Net.memory_earned_partial",
    "Verif.Net.memory_earned_violated"
   ],
   "note": "Proved for all messages but the one under way. Violated: a header of 24 bytes, even of another network, makes the node allocate up to 32 MiB at once; the start bytes are looked at only when the data are complete."
  },
  {
   "property": "C130",
   "status": "partial",
   "theorems": [
    "Verif.Text.alphabet_standard",
    "Verif.Text.base58_anchor",
    "Verif.Text.base58_round_trip",
    "Verif.Text.base58_exact",
    "Verif.Text.check_round_trip",
    "Verif.Text.check_exact",
    "Verif.Text.address_round_trip",
    "Verif.Text.address_unique_partial",
    "Verif.Text.address_no_abort",
    "Verif.Text.addresses_differ",
    "Verif.Text.address_unique_violated"
   ],
   "note": "Base 58 is proved in full. For address strings the uniqueness is up to the first zero byte: anything after it is ignored (violation shown)."
  },
  {
   "property": "C131",
   "status": "partial",
   "theorems": [
    "Verif.Text.hex_standard",
    "Verif.Text.hex_round_trip",
    "Verif.Text.rpc_hex_round_trip",
    "Verif.Text.rpc_hex_exact",
    "Verif.Text.hash_round_trip",
    "Verif.Text.hash_exact_partial",
    "Verif.Text.hex_exact_violated"
   ],
   "note": "Round trips and the strict reader of requests are proved in full; hashes for texts of 64 digits. Violated: shorter and longer texts are taken for hashes, and ParseHex ends silently at the first wrong character."
  },
  {
   "property": "C132",
   "status": "partial",
   "theorems": [
    "Verif.Text.amount_as_typed_partial",
    "Verif.Text.full_text_understood",
    "Verif.Text.plain_text_understood",
    "Verif.Text.json_amount_partial",
    "Verif.Text.amount_as_typed_violated"
   ],
   "note": "Proved for amounts below 2^63 (JSON numbers: 2^52) and, for the form amount:unit, the default token WICC. Outside violated: other default tokens are replaced by WICC, larger amounts become 2^63 - 1, JSON numbers are rounded."
  },
  {
   "property": "C133",
   "status": "partial",
   "theorems": [
    "Verif.Text.base64_standard",
    "Verif.Text.base64_round_trip",
    "Verif.Text.base64_injective",
    "Verif.Text.base64_exact_partial",
    "Verif.Text.base64_exact_violated"
   ],
   "note": "Round trip proved in full; uniqueness of the text for texts of the alphabet of a length divisible by four. Violated: anything may follow a whole number of groups."
  },
  {
   "property": "C134",
   "status": "partial",
   "theorems": [
    "Verif.Files.found_again_partial",
    "Verif.Files.stored_is_found_partial",
    "Verif.Files.undo_is_found_partial",
    "Verif.Files.files_bounded"
   ],
   "note": "Proved as long as no undo file reaches 4 GiB (its size is a 32-bit number)."
  },
  {
   "property": "C135",
   "status": "partial",
   "theorems": [
    "Verif.Files.reindex_recovers_partial",
    "Verif.Files.reindex_same_index_partial",
    "Verif.Files.reindex_keeps_blocks_violated"
   ],
   "note": "Proved for files whose blocks stand one after the other, each once, in particular those of a node that never crashed. Violated: a crash between block and index record leaves a block twice; reindexing then adds up too small a file size, and the next block overwrites the last one."
  },
  {
   "property": "C136",
   "status": "partial",
   "theorems": [
    "Verif.Wallet.always_loads",
    "Verif.Wallet.added_key_usable",
    "Verif.Wallet.first_key_usable",
    "Verif.Wallet.keys_kept_partial",
    "Verif.Wallet.keys_kept_forever_partial",
    "Verif.Wallet.add_result",
    "Verif.Wallet.encrypt_result",
    "Verif.Wallet.mining_key_added",
    "Verif.Wallet.mining_keys_kept",
    "Verif.Wallet.import_loses_key_violated",
    "Verif.Wallet.import_aborts_violated",
    "Verif.Wallet.encrypt_aborts_violated"
   ],
   "note": "Assumes correct decryption, key commitment of the cipher and distinct public keys; the last key is not removed. Violated: in a wallet without encryption importprivkey of a mining key for an own address loses the main key of the address; in an unlocked encrypted wallet it ends the program; a wallet with an address without main key cannot be encrypted (the program ends)."
  },
  {
   "property": "C137",
   "status": "partial",
   "theorems": [
    "Verif.Wallet.locked_gives_no_key",
    "Verif.Wallet.locked_after",
    "Verif.Wallet.file_hides_keys_partial",
    "Verif.Wallet.file_hides_keys_violated",
    "Verif.Wallet.memory_hides_keys_partial",
    "Verif.Wallet.memory_hides_keys_violated",
    "Verif.Wallet.drop_removes_keys_partial",
    "Verif.Wallet.drop_removes_keys_violated"
   ],
   "note": "Locking proved in full. File: proved unless the unlock timer or a crash hits within the adding of a key, violated then. Memory: proved after encryption and restart, violated by adding a key. dropminermainkeys: proved without encryption, violated with it."
  },
  {
   "property": "C138",
   "status": "partial",
   "theorems": [
    "Verif.Wallet.unlock_iff",
    "Verif.Wallet.unlock_effect",
    "Verif.Wallet.no_passphrase_refused",
    "Verif.Wallet.change_iff",
    "Verif.Wallet.changed",
    "Verif.Wallet.refused_change",
    "Verif.Wallet.refused_change_violated",
    "Verif.Wallet.stays_encrypted_partial",
    "Verif.Wallet.stays_encrypted_violated"
   ],
   "note": "Passphrase proved in full under the assumptions on the cryptography. Violated: a refused change locks an unlocked wallet; a wallet without keys is unencrypted again after the restart that follows encryption."
  },
  {
   "property": "C139",
   "status": "proved",
   "theorems": [
    "Verif.Hash.streamed_is_digest",
    "Verif.Hash.digest_is_one_value",
    "Verif.Hash.cut_does_not_matter",
    "Verif.Hash.reset_is_new",
    "Verif.Hash.double_hash_of_row"
   ],
   "note": "The compression functions are parameters; the linked library's SHA256_* and SHA512_* are taken to be streaming hashes of this kind."
  },
  {
   "property": "C140",
   "status": "proved",
   "theorems": [
    "Verif.Hash.hmac_is_standard"
   ],
   "note": "The compression function is a parameter."
  },
  {
   "property": "C141",
   "status": "proved",
   "theorems": [
    "Verif.Host.add_exact",
    "Verif.Host.sub_exact",
    "Verif.Host.mul_exact",
    "Verif.Host.div_exact",
    "Verif.Host.unsigned_exact"
   ],
   "note": "The branches for 64-bit types of a 64-bit build."
  },
  {
   "property": "C142",
   "status": "partial",
   "theorems": [
    "Verif.Host.eight_bytes_round_trip",
    "Verif.Host.eight_bytes_back",
    "Verif.Host.four_bytes_back",
    "Verif.Host.four_bytes_round_trip_partial",
    "Verif.Host.four_bytes_violated"
   ],
   "note": "Proved for eight bytes and for four bytes to a number and back. Violated for four bytes: negative numbers and those of more than 32 bits come back as others; exactly the numbers from 0 to 2^32 - 1 survive."
  },
  {
   "property": "C143",
   "status": "partial",
   "theorems": [
    "Verif.Host.lua_data_is_map_partial",
    "Verif.Host.zero_byte_key_violated",
    "Verif.Host.wasm_data_is_map",
    "Verif.Host.other_contracts_untouched"
   ],
   "note": "Wasm contracts for all keys within the limit, Lua contracts for keys without a zero byte. Violated: Lua keys that differ only after a zero byte are the same record."
  },
  {
   "property": "C144",
   "status": "partial",
   "theorems": [
    "Verif.Host.lua_calls_never_stop_node",
    "Verif.Host.wasm_key_stops_node_iff_partial",
    "Verif.Host.long_key_stops_node_violated"
   ],
   "note": "Proved for Lua contracts. Violated for wasm contracts: exactly the keys of 505 bytes to 1 MiB fail an assert and end the program of every node that executes the call."
  },
  {
   "property": "C145",
   "status": "partial",
   "theorems": [
    "Verif.Host.block_hash_is_ancestor_partial",
    "Verif.Host.confirm_height_is_ancestor_partial",
    "Verif.Host.branch_hash_violated",
    "Verif.Host.no_index_violated",
    "Verif.Host.wide_height_violated"
   ],
   "note": "Block hashes: proved when the block extends the active chain and the height has 32 bits. Confirmation heights: proved with the transaction index on. Violated: on a branch the hashes are those of the active chain; without the index nothing is found; heights are cut to 32 bits."
  },
  {
   "property": "C146",
   "status": "proved",
   "theorems": [
    "Verif.Sync.download_never_fails",
    "Verif.Sync.download_one_peer",
    "Verif.Sync.download_limit",
    "Verif.Sync.download_disconnected",
    "Verif.Sync.download_announced",
    "Verif.Sync.download_received",
    "Verif.Sync.download_send",
    "Verif.Sync.download_kept"
   ],
   "note": "Locks are not modelled: each function runs alone."
  },
  {
   "property": "C147",
   "status": "partial",
   "theorems": [
    "Verif.Sync.getblocks_answer",
    "Verif.Sync.getblocks_reaches_tip",
    "Verif.Sync.getheaders_answer",
    "Verif.Sync.getdata_continues",
    "Verif.Sync.getblocks_again_violated"
   ],
   "note": "Proved for what the node puts up for announcement. Violated for a repeated question on one connection: blocks already announced are left out, except for the first two."
  },
  {
   "property": "C148",
   "status": "partial",
   "theorems": [
    "Verif.Sync.getdata_answers",
    "Verif.Sync.getdata_pauses",
    "Verif.Sync.getdata_unknown_block_violated"
   ],
   "note": "Proved for order, completeness over pauses and missing transactions. Violated for blocks that are not here: they get no answer, also not that they were not found."
  },
  {
   "property": "C149",
   "status": "proved",
   "theorems": [
    "Verif.Sync.inventory_complete",
    "Verif.Sync.inventory_once",
    "Verif.Sync.inventory_not_echoed",
    "Verif.Sync.inventory_once_full_violated"
   ],
   "note": "The need for room in the set of known things is shown by a counterexample."
  },
  {
   "property": "C150",
   "status": "partial",
   "theorems": [
    "Verif.Sync.ask_apart",
    "Verif.Sync.ask_soon",
    "Verif.Sync.ask_in_order",
    "Verif.Sync.ask_delay",
    "Verif.Sync.ask_delay_violated"
   ],
   "note": "Distance and first request are proved. Violated: each announcement of the same transaction, also by one peer, puts off the next request by two minutes; 50000 of them (the limit of a peer) keep the node from asking others for 69 days."
  },
  {
   "property": "C151",
   "status": "proved",
   "theorems": [
    "Verif.Sync.ban_threshold",
    "Verif.Sync.ban_effect",
    "Verif.Sync.ban_not_shortened"
   ],
   "note": "Penalties are not negative."
  },
  {
   "property": "C152",
   "status": "partial",
   "theorems": [
    "Verif.Sync.filter_no_false_negative",
    "Verif.Sync.filter_keeps",
    "Verif.Sync.filter_never_fails",
    "Verif.Sync.filter_too_large",
    "Verif.Sync.filter_relay_partial",
    "Verif.Sync.filter_relay_violated"
   ],
   "note": "Proved for the filter itself. Violated for announcements: the test of transactions is commented out, so that a peer with a filter that is not full is told of none."
  },
  {
   "property": "C153",
   "status": "proved",
   "theorems": [
    "Verif.Addr.tables_consistent",
    "Verif.Addr.getaddr_sound"
   ],
   "note": "Select is represented by the buckets it chooses from: they are not all empty. Identifiers and counters do not overflow."
  },
  {
   "property": "C154",
   "status": "partial",
   "theorems": [
    "Verif.Addr.add_known",
    "Verif.Addr.add_forgets_at_most_one",
    "Verif.Addr.good_moves",
    "Verif.Addr.shrink_victim",
    "Verif.Addr.noted",
    "Verif.Addr.evicts_oldest_violated",
    "Verif.Addr.other_port_violated"
   ],
   "note": "Violated for the choice among the tried addresses: SelectTried returns the position an entry had before it was swapped, so that another one is evicted. Violated for ports: addresses are indexed without the port, so that a second port is neither learned nor tried."
  },
  {
   "property": "C155",
   "status": "proved",
   "theorems": [
    "Verif.Addr.source_group_limited",
    "Verif.Addr.tried_group_limited"
   ],
   "note": "The groups and the keyed hashes are parameters."
  },
  {
   "property": "C156",
   "status": "proved",
   "theorems": [
    "Verif.Arith.represents",
    "Verif.Arith.ring_exact",
    "Verif.Arith.division",
    "Verif.Arith.bitwise",
    "Verif.Arith.ordering"
   ],
   "note": "Left out: getdouble and the hexadecimal forms."
  },
  {
   "property": "C157",
   "status": "proved",
   "theorems": [
    "Verif.Arith.compact_means",
    "Verif.Arith.compact_truncates",
    "Verif.Arith.compact_precision",
    "Verif.Arith.compact_stable",
    "Verif.Arith.bytes_round_trip"
   ],
   "note": "The meaning of the form is the function exact, in natural numbers without the word arithmetic."
  },
  {
   "property": "C158",
   "status": "proved",
   "theorems": [
    "Verif.Ip.same_group"
   ],
   "note": "Regions are defined by the 128-bit number of the address."
  },
  {
   "property": "C159",
   "status": "partial",
   "theorems": [
    "Verif.Ip.match_prefix",
    "Verif.Ip.match_mask",
    "Verif.Ip.match_one",
    "Verif.Ip.text_bits",
    "Verif.Ip.text_mask",
    "Verif.Ip.text_ambiguous_violated"
   ],
   "note": "Violated for the text of subnets given by masks: the mask of an IPv6 address can leave an IPv4 network, of whose mask only the last four bytes are printed. The text of addresses is not modelled."
  },
  {
   "property": "C160",
   "status": "partial",
   "theorems": [
    "Verif.Ip.classes",
    "Verif.Ip.service_order",
    "Verif.Ip.subnet_order_partial",
    "Verif.Ip.multicast_routable_violated",
    "Verif.Ip.subnet_order_violated"
   ],
   "note": "Violated: multicast addresses are routable, and the order of subnets does not look at validity while equality does."
  },
  {
   "property": "C161",
   "status": "proved",
   "theorems": [
    "Verif.Vm.vm_unsigned_numbers",
    "Verif.Vm.vm_signed_numbers",
    "Verif.Vm.vm_numbers_fit"
   ],
   "note": "The specification is the grammar of section 5.2.2 of the standard. Which of the failed assertions is reported is not modelled."
  },
  {
   "property": "C162",
   "status": "proved",
   "theorems": [
    "Verif.Vm.vm_interpreter_standard",
    "Verif.Vm.vm_compiler_standard",
    "Verif.Vm.vm_compiler_deterministic",
    "Verif.Vm.vm_engines_agree"
   ],
   "note": "The emitted bytes are modelled literally; the model of the x86-64 instructions they use is trusted. Floating point, control flow, locals and calls are not covered."
  },
  {
   "property": "C163",
   "status": "partial",
   "theorems": [
    "Verif.Vm.vm_start_partial",
    "Verif.Vm.vm_start_bad_segment",
    "Verif.Vm.vm_start_independent_partial",
    "Verif.Vm.vm_start_crash",
    "Verif.Vm.vm_start_violated"
   ],
   "note": "Violated: the parser accepts up to 65536 declared pages, the machine has 528; the failed growth is ignored and copying a data segment raises a signal outside the guarded section, which ends the node."
  },
  {
   "property": "C164",
   "status": "partial",
   "theorems": [
    "Verif.Vm.vm_grow_partial",
    "Verif.Vm.vm_access",
    "Verif.Vm.vm_grow_violated"
   ],
   "note": "Violated: requests of 2^31 pages and more are read as negative and shrink the memory."
  },
  {
   "property": "C165",
   "status": "partial",
   "theorems": [
    "Verif.Vm.vm_table_interpreter",
    "Verif.Vm.vm_table_compiler_partial",
    "Verif.Vm.vm_table_compile_partial",
    "Verif.Vm.vm_table_violated"
   ],
   "note": "Violated: a declared size of 2^32 - 1 makes the first range empty; the second label then takes a range from an empty vector (failed assertion or undefined behaviour) and ends the node. Instructions are modelled by position, not by byte."
  },
  {
   "property": "C166",
   "status": "partial",
   "theorems": [
    "Verif.Intake.invalidate_partial",
    "Verif.Intake.invalidate_unprotected",
    "Verif.Intake.reconsider_undoes",
    "Verif.Intake.invalidate_remembered_violated",
    "Verif.Intake.invalidate_lasts_violated"
   ],
   "note": "Violated twice: the remembered best chain is dropped only if its last block is flagged, so invalidating a block in its middle can make the node switch to it; and a later block on top of the invalidated branch clears all flags (the test in ProcessForkedChain uses | instead of &) and brings the branch back."
  },
  {
   "property": "C167",
   "status": "proved",
   "theorems": [
    "Verif.Intake.mixed_chain_sound",
    "Verif.Intake.mixed_final_stay",
    "Verif.Intake.mixed_genesis",
    "Verif.Intake.mixed_never_stops",
    "Verif.Intake.invalidate_final_violated"
   ],
   "note": "For verdicts that depend only on the block and the chain below it. invalidate_final_violated shows the exception in the statement: invalidateblock does not ask whether the block is final."
  },
  {
   "property": "C168",
   "status": "partial",
   "theorems": [
    "Verif.Text.base32_rfc",
    "Verif.Text.base32_round_trip",
    "Verif.Text.base32_injective",
    "Verif.Text.base32_valid_partial",
    "Verif.Text.base32_exact_violated"
   ],
   "note": "Violated: after whole groups of eight characters any text is ignored and the whole is still called valid; the same holds after the padding. Proved instead: a valid text begins with the text of its bytes."
  },
  {
   "property": "C169",
   "status": "partial",
   "theorems": [
    "Verif.Text.onion_round_trip",
    "Verif.Text.onion_accepted_iff",
    "Verif.Text.onion_address",
    "Verif.Text.onion_exact_partial",
    "Verif.Text.onion_exact_violated"
   ],
   "note": "Violated: SetSpecial does not ask for validity, so names with a seventeenth character or with any text after the sixteen are taken for another service's name. Exact for names of 22 characters."
  },
  {
   "property": "C170",
   "status": "proved",
   "theorems": [
    "Verif.Peer.filter_last",
    "Verif.Peer.median_robust"
   ],
   "note": "Values are integers; the sum of the two middle values is taken without overflow. The only caller that reads the median does so for odd sizes, where there is no sum."
  },
  {
   "property": "C171",
   "status": "partial",
   "theorems": [
    "Verif.Peer.clock_unmoved",
    "Verif.Peer.clock_defined_partial",
    "Verif.Peer.clock_never_warns",
    "Verif.Peer.clock_warning_violated",
    "Verif.Peer.clock_overflow_violated"
   ],
   "note": "Violated twice. The warning can never be given: the filter's initial 0 counts as a peer that agrees until the filter is full, and then its size is even for ever and nothing is compared (proved for all runs). One peer's time can overflow the subtraction."
  },
  {
   "property": "C172",
   "status": "partial",
   "theorems": [
    "Verif.Peer.relay_true",
    "Verif.Peer.relay_forgets",
    "Verif.Peer.relay_kept_partial",
    "Verif.Peer.relay_kept_violated"
   ],
   "note": "Violated for a transaction relayed again, as the wallet does: the first entry of the queue drops it. Proved for transactions not relayed in the fifteen minutes before. The fallback to the memory pool is not part of this."
  },
  {
   "property": "C173",
   "status": "partial",
   "theorems": [
    "Verif.Peer.ping_time_true",
    "Verif.Peer.ping_keepalive",
    "Verif.Peer.ping_timeout_partial",
    "Verif.Peer.ping_timeout_violated"
   ],
   "note": "Violated: an answer with nonce 0 or a short answer ends the wait, so a peer that only sends these is never disconnected for it (proved for any number of rounds). Proved for peers that do not send these, without operator requests, which restart the wait."
  },
  {
   "property": "C174",
   "status": "partial",
   "theorems": [
    "Verif.Peer.local_best",
    "Verif.Peer.local_sound",
    "Verif.Peer.local_found",
    "Verif.Peer.local_ipv4",
    "Verif.Peer.local_tor_hidden",
    "Verif.Peer.local_tor_told",
    "Verif.Peer.local_tor_violated"
   ],
   "note": "Violated: peers with unroutable addresses are told the Tor address first, and peers on IPv4 can be told it when the other own addresses are IPv6. Proved for peers on IPv6, and for peers on IPv4 if there is an IPv4 address."
  },
  {
   "property": "C175",
   "status": "proved",
   "theorems": [
    "Verif.Addr.Save.save_new",
    "Verif.Addr.Save.save_tried",
    "Verif.Addr.Save.good_state",
    "Verif.Addr.Save.ref_new",
    "Verif.Addr.Save.saved_new",
    "Verif.Addr.Save.saved_tried"
   ],
   "note": "For every reachable state of the address manager. The bytes of an entry are those of the general serialisation and are not modelled again; the time of the last attempt is not saved by the code and is outside the statement. A file with another number of buckets is not modelled."
  }
 ]
}