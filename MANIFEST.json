{
 "claims": [
  {
   "property": "C01",
   "status": "proved",
   "theorems": [
    "Cyc.Reactor.C01_assemblies_conserved"
   ],
   "note": "Any configuration and any market; a permutation of (object, quantity) pairs."
  },
  {
   "property": "C02",
   "status": "proved",
   "theorems": [
    "Cyc.Reactor.C02_limits"
   ],
   "note": "Between steps and at trading time, in every honest history."
  },
  {
   "property": "C03",
   "status": "proved",
   "theorems": [
    "Cyc.Reactor.C03_orders_vacancy",
    "Cyc.Reactor.C03_retired_orders_nothing",
    "Cyc.Reactor.C16_orders_follow_schedule"
   ],
   "note": "Number of orders, their content, and silence after the exit time. C16_orders_follow_schedule gives the content of each order."
  },
  {
   "property": "C04",
   "status": "proved",
   "theorems": [
    "Cyc.Reactor.C04_never_fails",
    "Cyc.Reactor.C04_next_step_succeeds"
   ],
   "note": "Progress for whole histories and for the next step. WellFormed lists the consistency conditions."
  },
  {
   "property": "C05",
   "status": "proved",
   "theorems": [
    "Cyc.Reactor.C05_power_of_step",
    "Cyc.Reactor.C05_power_follows_starts",
    "Cyc.Reactor.C05_retired_no_power"
   ],
   "note": "State version and a version purely in terms of recorded cycle starts."
  },
  {
   "property": "C06",
   "status": "proved",
   "theorems": [
    "Cyc.Reactor.C06_cycle_runs",
    "Cyc.Reactor.C06_power_only_in_cycles",
    "Cyc.Reactor.C05_power_follows_starts"
   ],
   "note": "For every honest history; the converse covers reactors deployed in mid-cycle."
  },
  {
   "property": "C07",
   "status": "partial",
   "theorems": [
    "Cyc.Reactor.C07_mid_cycle",
    "Cyc.Reactor.C07_counterexample",
    "Cyc.Reactor.C07_periodic_partial"
   ],
   "note": "No bound on the number of steps. C07_periodic_partial: reactors not deployed in mid-cycle. C07_mid_cycle: the exact steps for every cycle_step; with one of 1 or more (and less than a period) the statement is false, as no cycle starts at deployment. C07_counterexample shows such a reactor."
  },
  {
   "property": "C08",
   "status": "proved",
   "theorems": [
    "Cyc.Reactor.C08_only_the_oldest_batch_changes",
    "Cyc.Reactor.C08_transmute_rows",
    "Cyc.Reactor.C08_end_of_cycle",
    "Cyc.Reactor.C08_spent_fuel_is_burnt"
   ],
   "note": "Per-step permutation with Transmuted (Spec.lean), position of the end of a cycle, and the whole-history statement that spent and shipped fuel is burnt."
  },
  {
   "property": "C09",
   "status": "proved",
   "theorems": [
    "Cyc.Reactor.C09_discharge_fifo",
    "Cyc.Reactor.C09_one_discharge_per_cycle"
   ],
   "note": "Exact list equations for one step, and the count of discharges between starts."
  },
  {
   "property": "C10",
   "status": "proved",
   "theorems": [
    "Cyc.Reactor.C10_stall",
    "Cyc.Reactor.C10_stall_ends_with_room"
   ],
   "note": "For stalls of any length, and the condition under which a stall ends."
  },
  {
   "property": "C11",
   "status": "proved",
   "theorems": [
    "Cyc.Reactor.C11_sales_oldest_first",
    "Cyc.Reactor.C11_all_spent_fuel_is_for_sale"
   ],
   "note": "Per commodity list equation for sold and kept assemblies."
  },
  {
   "property": "C12",
   "status": "proved",
   "theorems": [
    "Cyc.Reactor.C12_offers"
   ],
   "note": "Exact description of the bid portfolios."
  },
  {
   "property": "C13",
   "status": "partial",
   "theorems": [
    "Cyc.Reactor.C13_order_near_exit_partial",
    "Cyc.Reactor.C13_may_never_start",
    "Cyc.Reactor.C13_enough_without_fresh_storage_partial",
    "Cyc.Reactor.C13_enough_with_fresh_storage_partial",
    "Cyc.Reactor.C13_last_cycle_missed"
   ],
   "note": "False as stated: C13_may_never_start (a reactor that never runs) and C13_last_cycle_missed (one that misses its last cycle). The order size is characterised exactly. Every cycle up to the exit starts on time without fresh storage, with fresh storage for at most a batch if there is time for two cycles, and with larger fresh storage if the cycles after the first take at least twice what it holds."
  },
  {
   "property": "C14",
   "status": "proved",
   "theorems": [
    "Cyc.Reactor.C14_retired_is_quiet",
    "Cyc.Reactor.C14_transmutation_on_retirement",
    "Cyc.Reactor.C14_decommission_only_when_empty",
    "Cyc.Reactor.C14_fuel_moved_out",
    "Cyc.Reactor.C14_drains"
   ],
   "note": "Quiet after exit, transmutation on retirement, decommission condition, fuel moved out as far as there is room, draining."
  },
  {
   "property": "C15",
   "status": "partial",
   "theorems": [
    "Cyc.Reactor.C15_own_request_loses_nothing_partial",
    "Cyc.Reactor.C15_fresh_fuel_forgotten"
   ],
   "note": "False as stated: C15_fresh_fuel_forgotten. Holds for the reactor's own request."
  },
  {
   "property": "C16",
   "status": "proved",
   "theorems": [
    "Cyc.Reactor.C16_orders_follow_schedule",
    "Cyc.Reactor.C16_in_force_unique"
   ],
   "note": "InForceAt in Spec.lean is the independent reading of the schedule."
  },
  {
   "property": "C17",
   "status": "partial",
   "theorems": [
    "Cyc.Reactor.C17_schedules_checked_partial",
    "Cyc.Reactor.C17_fuel_vectors_unchecked"
   ],
   "note": "Change schedules are checked; the fuel vectors are not, and C17_fuel_vectors_unchecked is the counterexample, so the full statement is false of the code."
  },
  {
   "property": "C18",
   "status": "proved",
   "theorems": [
    "Cyc.Reactor.C18_side_products",
    "Cyc.Reactor.C05_retired_no_power"
   ],
   "note": "Rows of side products in lockstep with power."
  },
  {
   "property": "C19",
   "status": "proved",
   "theorems": [
    "Cyc.Storage.C19_conserved"
   ],
   "note": "Label by label and in total; labels are arbitrary."
  },
  {
   "property": "C20",
   "status": "proved",
   "theorems": [
    "Cyc.Storage.C20_residence",
    "Cyc.Storage.C20_residence_amount"
   ],
   "note": "With labels that carry the arrival time, and in amounts."
  },
  {
   "property": "C21",
   "status": "proved",
   "theorems": [
    "Cyc.Storage.C21_throughput"
   ],
   "note": "For both kinds of handling."
  },
  {
   "property": "C22",
   "status": "proved",
   "theorems": [
    "Cyc.Storage.C22_inventory_limit"
   ],
   "note": "The hypothesis bounds each step's deliveries by the free space before the trades."
  },
  {
   "property": "C23",
   "status": "proved",
   "theorems": [
    "Cyc.Storage.C23_arrival_order"
   ],
   "note": "Composition of the first A kg received; upto is the specification of that."
  },
  {
   "property": "C24",
   "status": "proved",
   "theorems": [
    "Cyc.Storage.C24_whole_batches"
   ],
   "note": "List equation between released and received items."
  },
  {
   "property": "C25",
   "status": "proved",
   "theorems": [
    "Cyc.Storage.C25_on_time"
   ],
   "note": "No effective limit: no step delivers more than the throughput."
  },
  {
   "property": "C26",
   "status": "partial",
   "theorems": [
    "Cyc.Storage.C26_never_fails_partial",
    "Cyc.Storage.C26_zero_throughput_throws",
    "Cyc.Storage.C26_tiny_throughput_throws"
   ],
   "note": "Progress for whole histories. C26_never_fails_partial: with continuous handling the throughput is at least the least quantity a buffer gives away (lo); false for smaller ones (C26_tiny_throughput_throws) and for 0 (C26_zero_throughput_throws)."
  },
  {
   "property": "C27",
   "status": "proved",
   "theorems": [
    "Cyc.Separations.C27_conserved",
    "Cyc.Separations.C27_nonneg"
   ],
   "note": "Per nuclide, for Tick and for whole histories, for any stream table; nothing held or sold is negative."
  },
  {
   "property": "C28",
   "status": "proved",
   "theorems": [
    "Cyc.Separations.C28_efficiencies",
    "Cyc.Separations.C28_scaled"
   ],
   "note": "Exact when there is room; C28_scaled gives the common factor when space is short."
  },
  {
   "property": "C29",
   "status": "proved",
   "theorems": [
    "Cyc.Separations.C29_limits"
   ],
   "note": "Bound on the recorded and the actual amount, and on every stream in every reachable state."
  },
  {
   "property": "C30",
   "status": "partial",
   "theorems": [
    "Cyc.Separations.C30_exact",
    "Cyc.Separations.C30_rejected_partial",
    "Cyc.Separations.C30_counterexample",
    "Cyc.Separations.C30_negative_counterexample"
   ],
   "note": "False of the code: element and nuclide entries are checked apart (C30_counterexample). C30_exact says what is checked; C30_rejected_partial covers nuclides not listed both ways. Negative efficiencies are accepted at deployment too and fail in a later step (C30_negative_counterexample)."
  },
  {
   "property": "C31",
   "status": "partial",
   "theorems": [
    "Cyc.Separations.C31_request_partial",
    "Cyc.Separations.C31_short_prefs",
    "Cyc.Separations.C31_received"
   ],
   "note": "Exact request and demand report. C31_short_prefs: a short preference list is not rejected and makes the request read out of bounds. C31_received: deliveries enter the feed. Partial: false for accepted lists of preferences of another length (C31_short_prefs)."
  },
  {
   "property": "C32",
   "status": "partial",
   "theorems": [
    "Cyc.Separations.C32_sales_partial",
    "Cyc.Separations.C32_tiny_throws"
   ],
   "note": "Exact quantities and composition, per commodity, for any list of covered trades. Partial: trades of at least lo, the least quantity a buffer gives away. False for smaller ones that do not take all there is: they throw, in every state (C32_tiny_throws)."
  },
  {
   "property": "C33",
   "status": "partial",
   "theorems": [
    "Cyc.Separations.C33_restart_partial",
    "Cyc.Separations.C33_counterexample",
    "Cyc.Separations.C33_never_retires",
    "Cyc.Separations.C33_snapshot",
    "Cyc.Separations.C33_through_partial",
    "Cyc.Separations.C33_snapshot_counterexample"
   ],
   "note": "False of the code: feed and leftover are also restored as product streams (C33_counterexample, C33_never_retires). C33_restart_partial: feed, leftover and streams themselves are restored. C33_snapshot: in any state, exactly when a snapshot can be taken; it then holds all inventories and changes nothing. C33_snapshot_counterexample: it throws for an inventory that was filled beyond its tolerance. C33_through_partial: snapshot and restart together."
  },
  {
   "property": "C34",
   "status": "proved",
   "theorems": [
    "Cyc.Separations.C34_retire"
   ],
   "note": "Equivalence, and mass balance at that point."
  },
  {
   "property": "C35",
   "status": "partial",
   "theorems": [
    "Cyc.Enrichment.C35_balance_partial",
    "Cyc.Enrichment.C35_counterexample"
   ],
   "note": "At any sale of product of any history, nuclide by nuclide, including the case in which the feed is exhausted (tails then deviate by at most eps). The value function is a parameter. Partial: when a sale exhausts the feed to within eps the tails are only near the tails assay; offers consist of the two uranium nuclides. The statement fails in that case: C35_counterexample."
  },
  {
   "property": "C36",
   "status": "proved",
   "theorems": [
    "Cyc.Enrichment.C36_limit",
    "Cyc.Enrichment.C36_exact"
   ],
   "note": "C36_limit: whatever the sales, up to the tolerance of the check. C36_exact: for sales within the constraints, exactly."
  },
  {
   "property": "C37",
   "status": "partial",
   "theorems": [
    "Cyc.Enrichment.C37_delivers_uranium_partial",
    "Cyc.Enrichment.C37_delivers_partial",
    "Cyc.Enrichment.C37_counterexample",
    "Cyc.Enrichment.C37_poor_counterexample"
   ],
   "note": "False of the code for feed with other nuclides (C37_counterexample: the constraint counts uranium, the facility removes feed) and for products poorer than the feed (C37_poor_counterexample: the facility bids and then throws). C37_delivers_uranium_partial: any feed, if the sales are within the constraint with the uranium of the feed for its capacity, products at least as rich as the feed. C37_delivers_partial: pure uranium feed, with the constraint as it is."
  },
  {
   "property": "C38",
   "status": "partial",
   "theorems": [
    "Cyc.Enrichment.C38_offers_partial",
    "Cyc.Enrichment.C38_above_tails",
    "Cyc.Enrichment.C38_delivered",
    "Cyc.Enrichment.C38_counterexample"
   ],
   "note": "False of the code at the lower bound: the tails assay is by mass, the test counts atoms (C38_counterexample). C38_offers_partial: exact condition of the code. C38_above_tails: every feasible request is served. C38_delivered: delivery at the requested assay."
  },
  {
   "property": "C39",
   "status": "partial",
   "theorems": [
    "Cyc.Enrichment.C39_ranked_partial",
    "Cyc.Enrichment.C39_sorted",
    "Cyc.Enrichment.C39_off",
    "Cyc.Enrichment.C39_counterexample"
   ],
   "note": "False of the code for bids of equal content: the comparison is not a strict order, undefined behaviour (C39_counterexample). C39_ranked_partial: distinct contents. C39_sorted: for any sorted arrangement."
  },
  {
   "property": "C40",
   "status": "proved",
   "theorems": [
    "Cyc.Enrichment.C40_request",
    "Cyc.Enrichment.C40_received"
   ],
   "note": "Exact request in every state of every history; C40_received: deliveries enter the feed."
  },
  {
   "property": "C41",
   "status": "partial",
   "theorems": [
    "Cyc.Enrichment.C41_records_partial",
    "Cyc.Enrichment.C41_stale",
    "Cyc.Enrichment.C41_counterexample"
   ],
   "note": "False of the code in steps without sales (C41_stale, C41_counterexample). C41_records_partial: steps with sales."
  },
  {
   "property": "C42",
   "status": "partial",
   "theorems": [
    "Cyc.FuelFab.C42_fractions",
    "Cyc.FuelFab.C42_exact_partial",
    "Cyc.FuelFab.C42_counterexample",
    "Cyc.FuelFab.C42_refuses",
    "Cyc.FuelFab.C42_offer"
   ],
   "note": "C42_fractions: range, sum and weight up to CY_NEAR_ZERO times the spread. Exactness as stated is false because fractions within CY_NEAR_ZERO of 0 and 1 are snapped (C42_counterexample); C42_exact_partial: exact otherwise, and when the weights coincide. C42_refuses: other targets throw. C42_offer: the offers of bids."
  },
  {
   "property": "C43",
   "status": "proved",
   "theorems": [
    "Cyc.FuelFab.C43_atoms"
   ],
   "note": "Any two materials with mass, any fraction in [0,1], atomic masses as parameters."
  },
  {
   "property": "C44",
   "status": "partial",
   "theorems": [
    "Cyc.FuelFab.C44_conserved",
    "Cyc.FuelFab.C44_amounts",
    "Cyc.FuelFab.C44_exact_partial",
    "Cyc.FuelFab.C44_counterexample"
   ],
   "note": "C44_conserved and C44_amounts over every list of trades; the exact quantity is false when a stream is short by less than the tolerance (C44_counterexample); C44_exact_partial: sales within the constraints of the bids with enough stock."
  },
  {
   "property": "C45",
   "status": "proved",
   "theorems": [
    "Cyc.FuelFab.C45_limit",
    "Cyc.FuelFab.C45_honest",
    "Cyc.FuelFab.C45_refuses"
   ],
   "note": "C45_limit: any trades that succeed, up to CY_NEAR_ZERO; C45_honest: trades within the bids' constraint; C45_refuses: more throws."
  },
  {
   "property": "C46",
   "status": "partial",
   "theorems": [
    "Cyc.FuelFab.C46_delivers_partial",
    "Cyc.FuelFab.C46_filler",
    "Cyc.FuelFab.C46_fissile",
    "Cyc.FuelFab.C46_counterexample",
    "Cyc.FuelFab.C46_filler_counterexample"
   ],
   "note": "False of the code: negligible shares are removed from an empty stream, which throws (C46_counterexample); without fissile material a sale takes filler instead (C46_filler_counterexample). C46_delivers_partial: regular sales; C46_filler, C46_fissile: one stream only."
  },
  {
   "property": "C47",
   "status": "proved",
   "theorems": [
    "Cyc.FuelFab.C47_routed",
    "Cyc.FuelFab.C47_single",
    "Cyc.FuelFab.C47_conserved"
   ],
   "note": "Any remains of earlier steps in the table of requests; addresses of requests of one step distinct."
  },
  {
   "property": "C48",
   "status": "proved",
   "theorems": [
    "Cyc.FuelFab.C48_weight",
    "Cyc.FuelFab.C48_u238",
    "Cyc.FuelFab.C48_pu239",
    "Cyc.FuelFab.C48_mix",
    "Cyc.FuelFab.C48_scale",
    "Cyc.FuelFab.C48_history"
   ],
   "note": "Cross sections, neutron yields and atomic masses are parameters. C48_history: the function-local statics that keep the first spectrum seen by the process."
  },
  {
   "property": "C49",
   "status": "proved",
   "theorems": [
    "Cyc.Mixer.C49_ratios"
   ],
   "note": ""
  },
  {
   "property": "C50",
   "status": "proved",
   "theorems": [
    "Cyc.Mixer.C50_mix"
   ],
   "note": "Any reachable state, after any deliveries of positive quantity."
  },
  {
   "property": "C51",
   "status": "proved",
   "theorems": [
    "Cyc.Mixer.C51_limits"
   ],
   "note": "The amount mixed is the greatest element of the set of admissible amounts."
  },
  {
   "property": "C52",
   "status": "partial",
   "theorems": [
    "Cyc.Mixer.C52_lost",
    "Cyc.Mixer.C52_restart_partial",
    "Cyc.Mixer.C52_counterexample"
   ],
   "note": "False of the code: InitInv overwrites the snapshot of the output with the empty output of the new facility (C52_lost: for any inventories; C52_counterexample). C52_restart_partial: the streams survive, and exactly the output is missing."
  },
  {
   "property": "C53",
   "status": "proved",
   "theorems": [
    "Cyc.Mixer.C53_requests",
    "Cyc.Mixer.C53_routed",
    "Cyc.Mixer.C53_refused"
   ],
   "note": "Addresses of requests of one step distinct; remains of earlier steps in the table allowed."
  },
  {
   "property": "C54",
   "status": "proved",
   "theorems": [
    "Cyc.Conversion.C54_conserved",
    "Cyc.Conversion.C54_throughput",
    "Cyc.Conversion.C54_sold",
    "Cyc.Conversion.C54_received"
   ],
   "note": "Per nuclide, over all histories; the move of each step is exact in amount and composition; what is sold has the composition of the product."
  },
  {
   "property": "C55",
   "status": "proved",
   "theorems": [
    "Cyc.Conversion.C55_request",
    "Cyc.Conversion.C55_bids"
   ],
   "note": "Exact characterisation of the request and of the bids of every step."
  },
  {
   "property": "C56",
   "status": "proved",
   "theorems": [
    "Cyc.Source.C56_life",
    "Cyc.Source.C56_throughput"
   ],
   "note": "C56_life holds against any trades; C56_throughput for trades that respect the bids."
  },
  {
   "property": "C57",
   "status": "partial",
   "theorems": [
    "Cyc.Source.C57_composition",
    "Cyc.Source.C57_quantity",
    "Cyc.Source.C57_answered_partial",
    "Cyc.Source.C57_counterexample"
   ],
   "note": "C57_composition unconditional; C57_quantity: an answer is exactly the traded quantity, or zero if that does not fill a package; C57_answered_partial: which trades are answered. The full property is false (C57_counterexample): a trade for a part of a bid below the smallest fill is answered with zero."
  },
  {
   "property": "C58",
   "status": "proved",
   "theorems": [
    "Cyc.Source.C58_bids",
    "Cyc.Source.loose_packing",
    "Cyc.Source.fillFirst_packing",
    "Cyc.Source.fillEqual_packing"
   ],
   "note": "Exact characterisation of the bids, with the bounds. The package is a parameter under the contract Packing, proved of unpackaged material and of the two strategies of cyclus (loose_packing, fillFirst_packing, fillEqual_packing)."
  },
  {
   "property": "C59",
   "status": "proved",
   "theorems": [
    "Cyc.Sink.C59_request",
    "Cyc.Sink.C59_inventory"
   ],
   "note": "C59_request unconditional (random numbers in range); C59_inventory for deliveries that respect the requests."
  },
  {
   "property": "C60",
   "status": "partial",
   "theorems": [
    "Cyc.Sink.C60_always",
    "Cyc.Sink.C60_random_partial",
    "Cyc.Sink.C60_gaps",
    "Cyc.Sink.C60_zero",
    "Cyc.Sink.C60_zero_example"
   ],
   "note": "Random numbers are arbitrary in range. C60_always: without random times every step; C60_random_partial: exactly the due times, for intervals of at least one step, the documented range; C60_gaps: bounds. C60_zero: with random_frequency_min = 0, outside that range but not rejected, a draw of zero ends all purchases. Partial: false for random_frequency_min = 0 (C60_zero)."
  },
  {
   "property": "C61",
   "status": "partial",
   "theorems": [
    "Cyc.Deploy.C61_schedule_partial",
    "Cyc.Deploy.C61_accepted",
    "Cyc.Deploy.C61_past",
    "Cyc.Deploy.C61_counterexample",
    "Cyc.Deploy.C61_shared"
   ],
   "note": "C61_schedule_partial: for schedules in which no prototype is named like another with a `_life_N` suffix, each step builds exactly the planned agents; C61_accepted: such schedules are accepted. False otherwise (C61_counterexample: the wrong agent is built), and, where cyclus refuses existing names, two institutions with the same prototype and lifetime override cannot both enter (C61_shared)."
  },
  {
   "property": "C62",
   "status": "partial",
   "theorems": [
    "Cyc.Deploy.C62_accepted",
    "Cyc.Deploy.C62_rejected_partial",
    "Cyc.Deploy.C62_counterexample",
    "Cyc.Deploy.C62_short"
   ],
   "note": "C62_accepted: an accepted schedule is consistent. C62_rejected_partial: an error unless the lists of times or of numbers are shorter than that of prototypes; then the lists are read out of bounds before the check (C62_short, C62_counterexample)."
  },
  {
   "property": "C63",
   "status": "partial",
   "theorems": [
    "Cyc.Region.C63_manager",
    "Cyc.Region.C63_deploy_partial",
    "Cyc.Region.C63_counterexample"
   ],
   "note": "C63_manager: holds for ManagerInst in every history. C63_deploy_partial: for DeployInst only facilities built since the start; those that exist at the start or at a restart are never counted (C63_counterexample)."
  },
  {
   "property": "C64",
   "status": "proved",
   "theorems": [
    "Cyc.Region.C64_orders"
   ],
   "note": "BuildingManager::MakeBuildDecision is a parameter."
  },
  {
   "property": "C65",
   "status": "proved",
   "theorems": [
    "Cyc.Region.C65_curve",
    "Cyc.Region.C65_before",
    "Cyc.Region.C65_first",
    "Cyc.Region.C65_continuous",
    "Cyc.Region.C65_growth",
    "Cyc.Region.C65_not_started",
    "Cyc.Region.C65_accepted"
   ],
   "note": "C65_curve: the demand is the curve of the configured pieces; C65_before, C65_first, C65_continuous, C65_growth, C65_not_started: what the curve is; C65_accepted: exactly the increasing starts are accepted. PiecewiseFunction is external to the repository and modelled by its documentation and assumed behaviour."
  },
  {
   "property": "C66",
   "status": "proved",
   "theorems": [
    "Cyc.Reactor.C66_no_fuel_held_back"
   ],
   "note": "At trading time and at the end of each step."
  },
  {
   "property": "C67",
   "status": "proved",
   "theorems": [
    "Cyc.Storage.C67_full_rate",
    "Cyc.Storage.C67_all_released",
    "Cyc.Storage.C67_all_items_released",
    "Cyc.Storage.C67_large_item_blocks"
   ],
   "note": "Exact rate, both eventualities, and the blocking of oversized items."
  },
  {
   "property": "C68",
   "status": "proved",
   "theorems": [
    "Cyc.Storage.C68_consistency_checked",
    "Cyc.Storage.C68_policy"
   ],
   "note": "Exact condition and the policy chosen."
  },
  {
   "property": "C69",
   "status": "proved",
   "theorems": [
    "Cyc.Storage.C69_reports"
   ],
   "note": "Values and commodities of the reports."
  },
  {
   "property": "C70",
   "status": "partial",
   "theorems": [
    "Cyc.Separations.C70_room_partial",
    "Cyc.Separations.C70_progress_partial",
    "Cyc.Separations.C70_leftover_counterexample",
    "Cyc.Separations.C70_bids_counterexample",
    "Cyc.Separations.C70_large_partial",
    "Cyc.Separations.C70_exact"
   ],
   "note": "Proved for an unlimited leftover inventory (C70_progress_partial), for one that has room for the feed of each step at its start (C70_room_partial), and for one that could take all that is ever received (C70_large_partial); false for a limited one that fills up, which throws instead of halting (C70_leftover_counterexample). Bidding pushes removed stock back, which throws when a buffer was filled up to its tolerance (C70_bids_counterexample). C70_exact: exactly when processing throws."
  },
  {
   "property": "C71",
   "status": "partial",
   "theorems": [
    "Cyc.Separations.C71_returned_partial",
    "Cyc.Separations.C71_counterexample"
   ],
   "note": "False of the code (C71_counterexample); proved for amounts, and for the composition when all nuclides are asked for equally."
  },
  {
   "property": "C72",
   "status": "proved",
   "theorems": [
    "Cyc.Separations.C72_bids"
   ],
   "note": "Soundness and completeness of bids, with the exact cut-off rule."
  },
  {
   "property": "C73",
   "status": "proved",
   "theorems": [
    "Cyc.Separations.C73_records"
   ],
   "note": "All values of all records of Tick."
  },
  {
   "property": "C74",
   "status": "proved",
   "theorems": [
    "Cyc.Enrichment.C74_conserved"
   ],
   "note": "Over every history."
  },
  {
   "property": "C75",
   "status": "proved",
   "theorems": [
    "Cyc.Enrichment.C75_bids",
    "Cyc.Enrichment.C75_sales"
   ],
   "note": "Bids exactly; sales at any point of any history."
  },
  {
   "property": "C76",
   "status": "proved",
   "theorems": [
    "Cyc.Enrichment.C76_limit",
    "Cyc.Enrichment.C76_always"
   ],
   "note": "Over every honest history."
  },
  {
   "property": "C77",
   "status": "proved",
   "theorems": [
    "Cyc.FuelFab.C77_requests"
   ],
   "note": ""
  },
  {
   "property": "C78",
   "status": "proved",
   "theorems": [
    "Cyc.FuelFab.C78_bids"
   ],
   "note": ""
  },
  {
   "property": "C79",
   "status": "partial",
   "theorems": [
    "Cyc.FuelFab.C79_weight_partial",
    "Cyc.FuelFab.C79_counterexample"
   ],
   "note": "False of the code without fissile stock (C79_counterexample). C79_weight_partial: regular sales."
  },
  {
   "property": "C80",
   "status": "proved",
   "theorems": [
    "Cyc.FuelFab.C80_size"
   ],
   "note": ""
  },
  {
   "property": "C81",
   "status": "partial",
   "theorems": [
    "Cyc.FuelFab.C81_step_partial",
    "Cyc.FuelFab.C81_counterexample",
    "Cyc.FuelFab.C81_accepts"
   ],
   "note": "Deliveries: any state (C81_accepts). Whole steps: false of the code for sales of negligible shares (C81_counterexample, as C46); C81_step_partial: regular sales."
  },
  {
   "property": "C82",
   "status": "partial",
   "theorems": [
    "Cyc.FuelFab.C82_filler_partial",
    "Cyc.FuelFab.C82_blocked",
    "Cyc.FuelFab.C82_counterexample"
   ],
   "note": "False of the code: HighFrac returns 1 for equal weights, so such trades are charged to the fissile stream (C82_blocked, C82_counterexample). C82_filler_partial: the fissile stream has another weight."
  },
  {
   "property": "C83",
   "status": "proved",
   "theorems": [
    "Cyc.FuelFab.C83_enter"
   ],
   "note": ""
  },
  {
   "property": "C84",
   "status": "proved",
   "theorems": [
    "Cyc.Mixer.C84_conserved"
   ],
   "note": ""
  },
  {
   "property": "C85",
   "status": "partial",
   "theorems": [
    "Cyc.Mixer.C85_runs_partial",
    "Cyc.Mixer.C85_zero",
    "Cyc.Mixer.C85_counterexample"
   ],
   "note": "False of the code when a ratio is zero and another is not: Pop(0) throws (C85_zero, C85_counterexample). C85_runs_partial: positive ratios or all zero, what is mixed not below the smallest removable quantity."
  },
  {
   "property": "C86",
   "status": "proved",
   "theorems": [
    "Cyc.Mixer.C86_output",
    "Cyc.Mixer.C86_streams"
   ],
   "note": "Output: any history. Streams: deliveries within the requests."
  },
  {
   "property": "C87",
   "status": "proved",
   "theorems": [
    "Cyc.Conversion.C87_capacity"
   ],
   "note": "In an honest market (deliveries within the constraint of the request portfolio)."
  },
  {
   "property": "C88",
   "status": "partial",
   "theorems": [
    "Cyc.Conversion.C88_runs_partial",
    "Cyc.Conversion.C88_counterexample"
   ],
   "note": "False of the code for a throughput of zero, which the input allows: Pop(0) throws (C88_counterexample). C88_runs_partial: positive throughput, amounts not below the smallest removable quantity."
  },
  {
   "property": "C89",
   "status": "proved",
   "theorems": [
    "Cyc.Conversion.C89_drains"
   ],
   "note": "For any sales during the k steps."
  },
  {
   "property": "C90",
   "status": "partial",
   "theorems": [
    "Cyc.Conversion.C90_restart_partial",
    "Cyc.Conversion.C90_lost",
    "Cyc.Conversion.C90_counterexample"
   ],
   "note": "False of the code: output is not a state variable, so it is not in the snapshot (C90_lost, C90_counterexample). C90_restart_partial: the feed survives; with an empty product the state is restored."
  },
  {
   "property": "C91",
   "status": "partial",
   "theorems": [
    "Cyc.Conversion.C91_request_partial",
    "Cyc.Conversion.C91_counterexample"
   ],
   "note": "False of the code: the request ignores the throughput (C91_counterexample). C91_request_partial: true when the throughput is at least the capacity."
  },
  {
   "property": "C92",
   "status": "partial",
   "theorems": [
    "Cyc.Source.C92_ledger_partial",
    "Cyc.Source.C92_life_partial",
    "Cyc.Source.C92_most",
    "Cyc.Source.C92_bound",
    "Cyc.Source.C92_counterexample"
   ],
   "note": "False of the code (C92_counterexample): a traded quantity of at most eps that does not fill a package is dropped. C92_ledger_partial: exact otherwise; C92_bound: at most eps per trade is lost."
  },
  {
   "property": "C93",
   "status": "proved",
   "theorems": [
    "Cyc.Source.C93_restart"
   ],
   "note": ""
  },
  {
   "property": "C94",
   "status": "proved",
   "theorems": [
    "Cyc.Source.C94_runs"
   ],
   "note": ""
  },
  {
   "property": "C95",
   "status": "proved",
   "theorems": [
    "Cyc.Source.C95_supply"
   ],
   "note": ""
  },
  {
   "property": "C96",
   "status": "proved",
   "theorems": [
    "Cyc.Source.C96_exhausted",
    "Cyc.Source.C96_answering",
    "Cyc.Source.C96_silent",
    "Cyc.Source.C96_small"
   ],
   "note": "C96_exhausted: in any market, with the smallest tradable quantity the lesser of the tolerance for bids (eps) and of what a buffer can give away (lo), which cyclus sets to the same value. C96_answering and C96_silent: only eps matters. C96_small: where lo is less than eps a source sends what it is told to although it bids for nothing."
  },
  {
   "property": "C97",
   "status": "proved",
   "theorems": [
    "Cyc.Sink.C97_keeps"
   ],
   "note": ""
  },
  {
   "property": "C98",
   "status": "partial",
   "theorems": [
    "Cyc.Sink.C98_runs_partial",
    "Cyc.Sink.C98_both",
    "Cyc.Sink.C98_full",
    "Cyc.Sink.C98_overflow"
   ],
   "note": "False of the code: both kinds of resource (C98_both), a random size without room (C98_full: a draw from an empty interval; nothing is assumed of it), default random_frequency_max (C98_overflow: signed overflow). C98_runs_partial: progress otherwise."
  },
  {
   "property": "C99",
   "status": "partial",
   "theorems": [
    "Cyc.Sink.C99_size_partial",
    "Cyc.Sink.C99_ignored",
    "Cyc.Sink.C99_counterexample"
   ],
   "note": "C99_size_partial: None, UniformReal, NormalReal. UniformInt and NormalInt are accepted but ignored (C99_ignored, C99_counterexample)."
  },
  {
   "property": "C100",
   "status": "partial",
   "theorems": [
    "Cyc.Sink.C100_restart_partial",
    "Cyc.Sink.C100_counterexample"
   ],
   "note": "False of the code for random times: the next purchase is not stored (C100_counterexample). C100_restart_partial: inventory and preferences always; the whole future without random times."
  },
  {
   "property": "C101",
   "status": "proved",
   "theorems": [
    "Cyc.Sink.C101_requests"
   ],
   "note": ""
  },
  {
   "property": "C102",
   "status": "proved",
   "theorems": [
    "Cyc.Sink.C102_prefs"
   ],
   "note": ""
  },
  {
   "property": "C103",
   "status": "partial",
   "theorems": [
    "Cyc.Sink.C103_full_partial",
    "Cyc.Sink.C103_silent",
    "Cyc.Sink.C103_counterexample"
   ],
   "note": "C103_silent: no requests, whatever is delivered. C103_full_partial: no growth, if deliveries answer requests. C103_counterexample: a full sink takes unasked deliveries within the tolerance, any number of them."
  },
  {
   "property": "C104",
   "status": "proved",
   "theorems": [
    "Cyc.Region.C104_built",
    "Cyc.Region.C104_ledger"
   ],
   "note": ""
  },
  {
   "property": "C105",
   "status": "partial",
   "theorems": [
    "Cyc.Region.C105_met_partial",
    "Cyc.Region.C105_counted",
    "Cyc.Region.C105_counterexample"
   ],
   "note": "C105_met_partial: all institutions are ManagerInsts from the start (Settled) and no capacity is negative. C105_counted: any region, for the facilities that the region counts, if builds are ordered from ManagerInsts of the start and no capacity is negative. Missing: negative capacities, facilities that the region does not count. C105_counterexample: builds ordered from an institution that entered after the start are never counted, and ordered again."
  },
  {
   "property": "C106",
   "status": "partial",
   "theorems": [
    "Cyc.Region.C106_exact",
    "Cyc.Region.C106_supply_partial",
    "Cyc.Region.C106_counterexample",
    "Cyc.Region.C106_late"
   ],
   "note": "C106_exact: the supply is the capacity of the facilities whose institution is there from the start and, for a DeployInst, that were built since. C106_supply_partial: all facilities, if all institutions are ManagerInsts from the start. False otherwise: C106_counterexample, C106_late (GrowthRegion has no BuildNotify)."
  },
  {
   "property": "C107",
   "status": "partial",
   "theorems": [
    "Cyc.Region.C107_restart_partial",
    "Cyc.Region.C107_counterexample"
   ],
   "note": "C107_restart_partial: if all institutions are ManagerInsts from the start. C107_counterexample: facilities of a DeployInst drop out of the supply at a restart."
  },
  {
   "property": "C108",
   "status": "proved",
   "theorems": [
    "Cyc.Region.C108_runs"
   ],
   "note": "Orders for an institution that leaves in the same step are excluded: the kernel would follow a dangling pointer."
  },
  {
   "property": "C109",
   "status": "proved",
   "theorems": [
    "Cyc.Region.C109_builders",
    "Cyc.Region.C109_unknown"
   ],
   "note": ""
  },
  {
   "property": "C110",
   "status": "proved",
   "theorems": [
    "Cyc.Reactor.C110_restart"
   ],
   "note": "Proved. The generated snapshot code is modelled in Toolkit/Snapshot.lean and Reactor/Restart.lean."
  },
  {
   "property": "C111",
   "status": "partial",
   "theorems": [
    "Cyc.Storage.C111_restart_partial"
   ],
   "note": "The internal state of the cyclus buy policy is not modelled. C111_restart_partial: the requests, which depend on that state, are missing."
  },
  {
   "property": "C112",
   "status": "partial",
   "theorems": [
    "Cyc.Enrichment.C112_restart_partial",
    "Cyc.Enrichment.C112_counterexample"
   ],
   "note": "Proved except for the time series of separative work and feed before the first sale after the restart, for which it fails: C112_counterexample."
  },
  {
   "property": "C113",
   "status": "proved",
   "theorems": [
    "Cyc.FuelFab.C113_restart"
   ],
   "note": "Proved for continuations in which deliveries answer requests of the step, as exchanges make them."
  },
  {
   "property": "C114",
   "status": "proved",
   "theorems": [
    "Cyc.Network.C114_nuclides"
   ],
   "note": "Composes the ledgers of all facility archetypes. Assumed of the exchange, which is in cyclus: what it hands out in a step is what it takes in that step, and is material of positive quantity without negative masses."
  },
  {
   "property": "C115",
   "status": "proved",
   "theorems": [
    "Cyc.Network.C115_mass"
   ],
   "note": "As C114; reactors by kg."
  },
  {
   "property": "C116",
   "status": "proved",
   "theorems": [
    "Cyc.Network.C116_bound"
   ],
   "note": "As C115, with Source.C92_most."
  },
  {
   "property": "C117",
   "status": "partial",
   "theorems": [
    "Cyc.Producer.C117_copy",
    "Cyc.Producer.C117_source",
    "Cyc.Producer.C117_power",
    "Cyc.Producer.C117_side_partial",
    "Cyc.Producer.C117_loads",
    "Cyc.Producer.C117_storage_partial",
    "Cyc.Producer.C117_noCommodity",
    "Cyc.Producer.C117_counterexample",
    "Cyc.Producer.C117_side_counterexample"
   ],
   "note": "Sources and power of reactors: proved (C117_source, C117_power, C117_copy, C117_loads). Side products need distinct names (C117_side_partial; C117_side_counterexample); storage is bounded over its life, not per step (C117_storage_partial; C117_counterexample)."
  },
  {
   "property": "C118",
   "status": "proved",
   "theorems": [
    "Cyc.Producer.C118_supply"
   ],
   "note": "Composition of C106 with C117 over all living facilities."
  },
  {
   "property": "C119",
   "status": "partial",
   "theorems": [
    "Cyc.Storage.C119_storage",
    "Cyc.Mixer.C119_mixer",
    "Cyc.Conversion.C119_conversion",
    "Cyc.Separations.C119_separations",
    "Cyc.Reactor.C119_reactor",
    "Cyc.Source.C119_source_partial",
    "Cyc.Source.C119_source_counterexample",
    "Cyc.Enrichment.C119_enrichment_partial",
    "Cyc.FuelFab.C119_fuelfab_partial",
    "Cyc.FuelFab.C119_fuelfab_counterexample"
   ],
   "note": "Proved for storage, mixer, conversion, separations (holdings up to items of quantity zero) and reactor. Source: when the transport units carry all trades (C119_source_partial; C119_source_counterexample). Enrichment: for the feed and products of C37 (C119_enrichment_partial). Fuel fabrication: for sales that take fissile material (C119_fuelfab_partial; C119_fuelfab_counterexample)."
  },
  {
   "property": "C120",
   "status": "partial",
   "theorems": [
    "Cyc.Reactor.C120_reactor",
    "Cyc.Sink.C120_sink",
    "Cyc.Conversion.C120_conversion",
    "Cyc.Enrichment.C120_enrichment",
    "Cyc.Mixer.C120_mixer",
    "Cyc.Separations.C120_separations",
    "Cyc.Separations.C120_separations_fifo",
    "Cyc.Storage.C120_storage_partial",
    "Cyc.Storage.C120_storage_continuous_partial",
    "Cyc.Storage.C120_storage_counterexample",
    "Cyc.FuelFab.C120_fuelfab"
   ],
   "note": "Proved for sink, conversion, enrichment, mixer, separations, fuel fabrication and reactor. Storage: with a residence time (C120_storage_partial) and, in quantity, for continuous handling (C120_storage_continuous_partial); without residence time the order of discrete items decides what is for sale (C120_storage_counterexample). Later steps may differ, as the feed of separations is first in, first out (C120_separations_fifo)."
  },
  {
   "property": "C121",
   "status": "partial",
   "theorems": [
    "Cyc.Deploy.C121_deploy_partial",
    "Cyc.Deploy.C121_deploy_counterexample",
    "Cyc.Reactor.C121_reactor",
    "Cyc.Region.C121_region",
    "Cyc.Separations.C121_separations",
    "Cyc.Sink.C121_sink_partial",
    "Cyc.Sink.C121_sink_counterexample",
    "Cyc.Storage.C121_storage"
   ],
   "note": "Equations between the outcomes of whole histories, failures included, for all archetypes that read the time: reactor, storage, separations, sink (random times: no purchase before the start of the simulation, no overflow), DeployInst (no time that becomes -1) and GrowthRegion. The other facilities and ManagerInst do not read the time except to record it, and their models have none. Partial: C121_sink_partial and C121_deploy_partial have these conditions on the input; it is false without them (C121_sink_counterexample, C121_deploy_counterexample)."
  },
  {
   "property": "C122",
   "status": "proved",
   "theorems": [
    "Cyc.Reactor.C122_core",
    "Cyc.Reactor.C122_stores"
   ],
   "note": "Core: any configuration and any market. Fresh and spent: until the exit time, as retirement moves fresh fuel to spent storage without an event."
  },
  {
   "property": "C123",
   "status": "partial",
   "theorems": [
    "Cyc.Reactor.C123_mid_cycle",
    "Cyc.Reactor.C123_counterexample",
    "Cyc.Reactor.C123_capacity_factor",
    "Cyc.Reactor.C123_long_run",
    "Cyc.Reactor.C123_attained_partial"
   ],
   "note": "Window bound for every stretch of steps and long-run bound: all reactors. C123_attained_partial: attainment for reactors not deployed in mid-cycle; C123_mid_cycle: the exact energy for every cycle_step. C123_counterexample: a reactor deployed in mid-cycle that records less than the ideal one in its first two steps."
  },
  {
   "property": "C124",
   "status": "proved",
   "theorems": [
    "Cyc.Reactor.C124_energy_takes_cycles",
    "Cyc.Reactor.C124_cycles_take_fuel",
    "Cyc.Reactor.C124_energy_from_start",
    "Cyc.Reactor.C124_energy_takes_fuel"
   ],
   "note": "Cycles from fuel, energy from cycles, and energy from fuel, reactors deployed in mid-cycle included; C124_energy_from_start is the sharper form for the others."
  },
  {
   "property": "C125",
   "status": "partial",
   "theorems": [
    "Cyc.Sim.C125_runs_partial",
    "Cyc.Sim.C125_without_enrichment_partial",
    "Cyc.Sim.C125_conversion_counterexample",
    "Cyc.Sim.C125_crumbs_counterexample",
    "Cyc.Sim.C125_mixer_counterexample",
    "Cyc.Sim.C125_separations_counterexample",
    "Cyc.Sim.C125_enrichment_counterexample"
   ],
   "note": "Closed simulations of all nine archetypes. Prototypes are assumed sensible (Sensible); feed of enrichment facilities has to suit them (Suits), as they can otherwise offer what they cannot deliver (C37). Of the deals that a fuel fabrication offers, the exchange makes only those it can keep (C46, fuelKept). False of the code without these assumptions: the counterexamples (Sim/Props16.lean) are simulations that stop with an error, one for each; random purchases, packaging and ordered preferences are excluded because of C98, C57 and C39."
  },
  {
   "property": "C126",
   "status": "partial",
   "theorems": [
    "Cyc.Sim.C126_total_partial"
   ],
   "note": "As C125. Every facility's balance is part of its contract with the exchange."
  },
  {
   "property": "C127",
   "status": "partial",
   "theorems": [
    "Cyc.Sim.C127_agreed_partial"
   ],
   "note": "As C125. The agreement is part of the contract of every facility."
  },
  {
   "property": "C128",
   "status": "partial",
   "theorems": [
    "Cyc.Sim.C128_nuclides_partial"
   ],
   "note": "Partial as C125, and without sources that have no recipe, whose material gets its composition on delivery."
  },
  {
   "property": "C129",
   "status": "partial",
   "theorems": [
    "Cyc.Sim.C129_comings_and_goings_partial"
   ],
   "note": "Partial as C125: sensible prototypes, agreed feed for enrichment, only deals with fuel fabrications that these can keep."
  },
  {
   "property": "C130",
   "status": "partial",
   "theorems": [
    "Cyc.Sim.C130_total_partial",
    "Cyc.Sim.C130_nuclides_partial",
    "Cyc.Sim.C130_taken"
   ],
   "note": "Partial as C125; by nuclide as C128. C130_taken says what reactors and separations facilities take with them."
  },
  {
   "property": "C131",
   "status": "partial",
   "theorems": [
    "Cyc.Sim.C131_scheduled_partial"
   ],
   "note": "Partial as C125, and as C61 for the names of prototypes. Composes C61 and C129."
  },
  {
   "property": "C132",
   "status": "partial",
   "theorems": [
    "Cyc.Sim.C132_lives_partial",
    "Cyc.Sim.C132_balance_partial",
    "Cyc.Sim.C132_nuclides_partial",
    "Cyc.Sim.C132_comings_and_goings_partial",
    "Cyc.Sim.C132_limits_partial"
   ],
   "note": "Partial as C125. Connects closed simulations with the claims about single facilities: Lived is History in an honest market for each archetype, with the deliveries and sales of the simulation."
  },
  {
   "property": "C133",
   "status": "partial",
   "theorems": [
    "Cyc.Sim.C133_snapshot_partial",
    "Cyc.Sim.C133_restart_partial",
    "Cyc.Sim.C133_conversion",
    "Cyc.Sim.C133_separations",
    "Cyc.Sim.C133_mixer"
   ],
   "note": "False of the code with conversions that have product, mixers and separations facilities (C133_conversion, C133_mixer, C133_separations). C133_restart_partial: all other simulations, with the hypotheses of C125. C133_snapshot_partial covers all archetypes. Members that are not initialised have any value."
  },
  {
   "property": "C134",
   "status": "partial",
   "theorems": [
    "Cyc.Sim.C134_runs_partial",
    "Cyc.Sim.C134_one_to_one",
    "Cyc.Sim.C134_supply",
    "Cyc.Sim.C134_met",
    "Cyc.Sim.C134_simulation",
    "Cyc.Sim.C134_built"
   ],
   "note": "C134_runs_partial with the hypotheses of C125 on prototypes. The other parts hold of every run: C134_one_to_one, C134_supply and C134_met (if all institutions are ManagerInsts, as C106), C134_simulation, C134_built. Institutions neither enter nor leave, and all reactors give power the same name."
  },
  {
   "property": "C135",
   "status": "partial",
   "theorems": [
    "Cyc.Sim.C135_room_partial",
    "Cyc.Sim.C135_comings_and_goings_partial",
    "Cyc.Sim.C135_pace_partial",
    "Cyc.Sim.C135_steps_partial",
    "Cyc.Sim.C135_residence_partial"
   ],
   "note": "Partial as C125. C135_room_partial and C135_comings_and_goings_partial for the stores, C135_pace_partial and C135_steps_partial for what is given and received, C135_residence_partial for storage. The limit of a storage facility is for buy policies that ask for no more than fits."
  },
  {
   "property": "C136",
   "status": "partial",
   "theorems": [
    "Cyc.Sim.C136_on_schedule_partial"
   ],
   "note": "Partial as C125. Supplies, Drains (Sim/Supply.lean), Exchange.Eager (Sim/Eager.lean), batchAt and supplyAt (Reactor/Steady.lean) and OnTime (Sim/Props7.lean) are the specification. For reactors without a scheduled exit whose cycle starts at its first step and whose spent fuel storage has room for a batch. Sim/Filling.lean has an exchange that is fair and eager."
  },
  {
   "property": "C137",
   "status": "partial",
   "theorems": [
    "Cyc.Sim.C137_commodities",
    "Cyc.Sim.C137_no_customers",
    "Cyc.Sim.C137_no_suppliers",
    "Cyc.Sim.C137_commodities_partial",
    "Cyc.Sim.C137_no_customers_partial",
    "Cyc.Sim.C137_no_suppliers_partial",
    "Cyc.Sim.C137_separate_partial"
   ],
   "note": "Partial as C125. buysOf and sellsOf (Sim/Supply.lean) say what the input of a prototype names; C137_separate_partial is for any group whose commodities are its own. C137_commodities, C137_no_customers and C137_no_suppliers (Props10) hold for any input and any exchange in which who offers a commodity hands it over to who asks for it."
  },
  {
   "property": "C138",
   "status": "partial",
   "theorems": [
    "Cyc.Sim.C138_nothing_left_partial",
    "Cyc.Sim.C138_flow_partial",
    "Cyc.Sim.C138_steady_partial",
    "Cyc.Sim.C138_ships_partial"
   ],
   "note": "Partial as C125. The exchange is any that respects requests and offers and to which no deal of arbitrary amount can be added (Exchange.Thorough); pouring is one. left and wanted (Sim/Flow.lean) are what a source can give and a sink takes."
  },
  {
   "property": "C139",
   "status": "partial",
   "theorems": [
    "Cyc.Sim.C139_side_by_side",
    "Cyc.Sim.C139_apart",
    "Cyc.Sim.C139_no_influence",
    "Cyc.Sim.C139_fair_partial"
   ],
   "note": "Side by side and without influence: for all inputs and all states, no sensible input assumed. C139_fair_partial (nothing fails, exchanges of the groups respect requests and offers) is partial as C125."
  },
  {
   "property": "C140",
   "status": "partial",
   "theorems": [
    "Cyc.Sim.C140_on_enriched_partial"
   ],
   "note": "Partial as C125. Enriches, Lasts, Drains (Sim/Supply.lean), Exchange.Keen (Sim/Eager.lean), Enrichment.Feasible (Enrichment/Spec.lean), batchAt and supplyAt (Reactor/Steady.lean) and OnTime (Sim/Props7.lean) are the specification. The initial feed must last for all the steps: feed bought meanwhile is not counted (see C141). Sim/Sweeping.lean has an exchange that is fair and keen."
  },
  {
   "property": "C141",
   "status": "partial",
   "theorems": [
    "Cyc.Sim.C141_fuel_cycle_partial"
   ],
   "note": "Partial as C125. Enriches, Replenishes, Drains (Sim/Supply.lean), Exchange.Keen (Sim/Eager.lean), Exchange.Thorough (Sim/Thorough.lean), Enrichment.Feasible (Enrichment/Spec.lean), batchAt and supplyAt (Reactor/Steady.lean) and OnTime (Sim/Props7.lean) are the specification. Sim/Sating.lean has an exchange that is fair, keen and thorough."
  },
  {
   "property": "C142",
   "status": "partial",
   "theorems": [
    "Cyc.Sim.C142_nothing_negative_partial",
    "Cyc.Sim.C142_nothing_owed_partial"
   ],
   "note": "For all simulations of sensible prototypes (Sensible, Suits): no piece of material held has a negative mass of a nuclide; what was given is at most what was there and what was received. Partial as C125."
  },
  {
   "property": "C143",
   "status": "partial",
   "theorems": [
    "Cyc.Sim.C143_generated_partial",
    "Cyc.Sim.C143_reactor_partial",
    "Cyc.Sim.C143_fuel_used_once_partial",
    "Cyc.Sim.C143_energy_partial"
   ],
   "note": "Energy of a reactor at most burn-up times fuel received (less the part of the core never discharged); in an open fuel cycle (Open) all reactors together receive at most the initial mass and generate at most burn-up times it. An example shows that the bound fails if the cycle is closed. Partial as C125; reactors deployed at the beginning of a cycle. Generated (Sim/Props13.lean), Burns and Open (Sim/Supply.lean) are the specification."
  },
  {
   "property": "C144",
   "status": "partial",
   "theorems": [
    "Cyc.Sim.C144_same_partial",
    "Cyc.Sim.C144_lives_partial",
    "Cyc.Sim.C144_balance_partial",
    "Cyc.Sim.C144_limits_partial",
    "Cyc.Sim.C144_clock_partial"
   ],
   "note": "Partial as C125. chronicle (Sim/Books.lean) is the simulation live with an account for every facility; C144_same_partial shows that it is the same simulation and that accounts and deals agree. Lived (Sim/Lives.lean), pace, perStep, intake (Sim/Limits.lean) are the specification. C144_clock_partial (Sim/Props21): the clock of every facility agrees with the simulation."
  },
  {
   "property": "C145",
   "status": "partial",
   "theorems": [
    "Cyc.Sim.C145_fuel_used_once_partial",
    "Cyc.Sim.C145_reactors_partial",
    "Cyc.Sim.C145_energy_partial"
   ],
   "note": "Partial as C125; reactors deployed at the beginning of a cycle. OpenCycle (Sim/Books.lean), Burns (Sim/Supply.lean) and Book.Generated (Sim/Props14.lean) are the specification. That the cycle is open is needed: see the example for C143."
  },
  {
   "property": "C146",
   "status": "partial",
   "theorems": [
    "Cyc.Sim.C146_front_end_partial"
   ],
   "note": "Partial as C125. Feeds and Flows (Sim/Chain.lean), Enriches and Drains (Sim/Supply.lean), Exchange.Keen (Sim/Eager.lean), Exchange.Thorough (Sim/Thorough.lean), Enrichment.Feasible (Enrichment/Spec.lean), batchAt and supplyAt (Reactor/Steady.lean) and OnTime (Sim/Props7.lean) are the specification. Beside it, a chain of two conversions meets the hypotheses."
  },
  {
   "property": "C147",
   "status": "partial",
   "theorems": [
    "Cyc.Sim.C147_later_on_schedule_partial",
    "Cyc.Sim.C147_growing_fleet_partial"
   ],
   "note": "Partial as C125. Served and Punctual (Sim/Served.lean), Supplies and Drains (Sim/Supply.lean), Exchange.Eager (Sim/Eager.lean), batchAt and supplyAt (Reactor/Steady.lean) are the specification. For reactors without a scheduled exit whose cycle starts at its first step and whose spent fuel storage has room for a batch. C147_growing_fleet_partial has conditions on the plan alone; beside it, a plan meets them."
  },
  {
   "property": "C148",
   "status": "partial",
   "theorems": [
    "Cyc.Sim.C148_life_of_a_reactor_partial",
    "Cyc.Sim.C148_shut_down_partial",
    "Cyc.Sim.C148_lifetime_partial"
   ],
   "note": "Partial as C125. Served, Emptied and Punctual (Sim/Served.lean), Supplies and Drains (Sim/Supply.lean), Exchange.Eager (Sim/Eager.lean), batchAt and supplyAt (Reactor/Steady.lean) are the specification. For reactors without storage for fresh fuel, because one with such storage reduces its orders before its last step (C13), whose cycle starts at its first step and whose spent fuel storage has room for a batch. C148_shut_down_partial has conditions on the plan alone; beside it, a plan meets them. C148_lifetime_partial: the same from the lifetime of the reactor, which is the number of steps in which it runs."
  },
  {
   "property": "C149",
   "status": "partial",
   "theorems": [
    "Cyc.Sim.C149_back_end_partial",
    "Cyc.Sim.C149_fuel_cycle_partial"
   ],
   "note": "Partial as C125. Disposes, Copes, Link, Collects, Disposed, before and lags (Sim/BackEnd.lean), Supplies (Sim/Supply.lean), Enriches, Feeds (Sim/Chain.lean), the conditions on the exchange (Sim/Spec and Sim/Parts) and OnTime (Sim/Props7) are the specification. Beside it, two reactors with two storage facilities, once with a source and once with a mine, two conversions and enrichment, meet the hypotheses."
  },
  {
   "property": "C150",
   "status": "partial",
   "theorems": [
    "Cyc.Sim.C150_reprocessing_partial",
    "Cyc.Sim.C150_fuel_cycle_partial",
    "Cyc.Sim.C150_recovered_partial"
   ],
   "note": "Partial as C125. Reprocesses, Worthwhile and Reprocessed (Sim/Reprocess.lean), Conveys, Disposed, Link, before and lags (Sim/BackEnd.lean), Supplies, Enriches, Feeds and OnTime are the specification. Beside it, two reactors, two storage facilities, a separations facility and two sinks meet the hypotheses."
  },
  {
   "property": "C151",
   "status": "partial",
   "theorems": [
    "Cyc.Separations.C151_offered_partial",
    "Cyc.Separations.C151_counterexample"
   ],
   "note": "Proved: what is offered and the items no larger than eps_rsrc together cover the request or the inventory. The claim without the latter is false: C151_counterexample gives, for any amount, a history in an honest market after which the facility holds that amount and has never made a bid although it was asked in every step."
  },
  {
   "property": "C152",
   "status": "partial",
   "theorems": [
    "Cyc.Separations.C152_separations",
    "Cyc.Conversion.C152_conversion",
    "Cyc.Source.C152_source",
    "Cyc.FuelFab.C152_fuel_fab",
    "Cyc.Reactor.C152_reactor",
    "Cyc.Enrichment.C152_enrichment_partial",
    "Cyc.Enrichment.C152_enrichment_counterexample"
   ],
   "note": "Proved for reactors, fuel fabrication, separations, conversion, sources and the product of enrichment. False of the tails of enrichment: C152_enrichment_counterexample. Mixer and storage sell by a policy of cyclus."
  },
  {
   "property": "C153",
   "status": "partial",
   "theorems": [
    "Cyc.Sim.C153_power_partial",
    "Cyc.Sim.C153_no_outages_partial"
   ],
   "note": "Partial as C125. Fuelled, Book.Records, refuelling, atWork and Country.plan (Sim/Settled.lean), Supplies and Drains (Sim/Supply.lean), Exchange.Eager (Sim/Eager.lean), Region.Demanded and Region.curve (Region/Spec.lean) are the specification. For reactors with unlimited lifetime and institutions that are ManagerInsts (for others the supply is not what is there: C106). Beside it, a region meets the hypotheses in which two reactors are built. C153_no_outages_partial (Sim/Props28.lean): with a refuelling time of 0 the recorded power alone is no less than what was demanded in the step before."
  },
  {
   "property": "C154",
   "status": "partial",
   "theorems": [
    "Cyc.Position.C154_rows",
    "Cyc.Position.C154_once_partial",
    "Cyc.Position.C154_separations_counterexample",
    "Cyc.Position.C154_mixer_counterexample"
   ],
   "note": "False of the code for separations and mixers: InitializePosition is in the loop over the streams (C154_separations_counterexample, C154_mixer_counterexample). C154_rows: the exact number of rows. C154_once_partial: all other agents, and those with one stream. What InitializePosition does (a snippet of cyclus) is assumed."
  },
  {
   "property": "C155",
   "status": "proved",
   "theorems": [
    "Cyc.Sim.C155_later"
   ],
   "note": "For all inputs, also those that fail. A whole simulation, with builds, decommissionings and the exchange, moved by d steps; see Verif/Sim/Later.lean for what moving means."
  },
  {
   "property": "C156",
   "status": "partial",
   "theorems": [
    "Cyc.Input.C156_left_out_partial",
    "Cyc.Input.C156_side_products",
    "Cyc.Input.C156_order_prefs"
   ],
   "note": "False of the code for the quantities of side products of a reactor (C156_side_products) and for order_prefs of an enrichment facility, whose default turns on the sort of C39 (C156_order_prefs). C156_left_out_partial: all nine archetypes, with these given, lists that belong together given together, and the default names and limits free (Careful, Verif/Input/Spec.lean). Values that come from snippets of cyclus are not optional here."
  },
  {
   "property": "C157",
   "status": "partial",
   "theorems": [
    "Cyc.Shipped.C157_runs_partial",
    "Cyc.Shipped.C157_grown_partial",
    "Cyc.Shipped.C157_one_seller",
    "Cyc.Shipped.C157_as_written_partial"
   ],
   "note": "All sixteen files that differ in more than the solver, for any plan and any growth region that builds their prototypes, with order_prefs off; C157_as_written_partial is for the files as they are, with order_prefs on, and the facilities that they build: no more than one of these sells feed, and it makes one bid (C157_one_seller, C158). Partial as C125 (deals with fuel fabrications that these cannot keep are not made). Growth regions and institutions are parameters."
  },
  {
   "property": "C158",
   "status": "partial",
   "theorems": [
    "Cyc.Sim.C158_exact_partial",
    "Cyc.Sim.C158_same",
    "Cyc.Sim.C158_one_seller_partial",
    "Cyc.Sim.C158_mines_partial",
    "Cyc.Sim.C158_counterexample",
    "Cyc.Sim.C158_bids_are_offers",
    "Cyc.Sim.C158_bids_alone",
    "Cyc.Sim.C158_counterexample_tails"
   ],
   "note": "A simulation with order_prefs runs if and only if no enrichment facility ever has two bids for feed of the same fraction of uranium-235 (C158_exact_partial), and is then one without order_prefs (C158_same), so that C125 to C150 apply. Two conditions on the input that exclude ties: one seller of feed, or mines of different ore. C158_counterexample: two mines of the same ore and the default order_prefs have undefined behaviour, whatever the exchange. Partial as C125: deals that fuel fabrications cannot keep are not made, and the assays of feed have to suit an agreement. C158_bids_are_offers: the bids that are ranked are those behind the offers of the market. C158_bids_alone: they do not depend on other requests. C158_counterexample_tails: one supplier that sells several portions of tails is enough for undefined behaviour."
  },
  {
   "property": "C159",
   "status": "proved",
   "theorems": [
    "Cyc.Reactor.C159_requests",
    "Cyc.Reactor.C159_shipments",
    "Cyc.Reactor.C159_unknown_recipe"
   ],
   "note": "No assumption on the input or the exchange. C159_requests and C159_shipments: the composition of every request and of everything handed over; C159_unknown_recipe: a reactor that orders fuel of which no recipe exists fails."
  }
 ]
}