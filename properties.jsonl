{"id": "C01", "title": "Reactor conserves fuel assemblies", "statement": "After any history, the assemblies a Reactor holds in its fresh, core and spent inventories together with the ones it has shipped are exactly the ones it has received: none is lost, duplicated or invented, and the quantity of each one never changes.", "quantifier": "every reactor configuration, every history of deliveries, sales and time steps, with or without retirement", "why_tests_cant": "A test fixes one supplier schedule and a few dozen steps; the claim must hold for every schedule of deliveries and sales, and for every length of run.", "anchors": ["src/reactor.cc: Tick, Tock, GetMatlTrades, AcceptMatlTrades, Transmute, Discharge, Load, PopSpent, PushSpent"]}
{"id": "C02", "title": "Reactor inventories never exceed their limits", "statement": "At every moment the core holds at most n_assem_core assemblies, fresh storage at most n_assem_fresh and spent storage at most n_assem_spent, provided the market delivers no more than was requested.", "quantifier": "every configuration, every reachable state, every market that delivers at most what was requested", "why_tests_cant": "A test fixes one supplier schedule and a few dozen steps; the claim must hold for every schedule of deliveries and sales, and for every length of run.", "anchors": ["src/reactor.cc: GetMatlRequests, AcceptMatlTrades, Discharge, Load, Tick", "src/reactor.h: fresh, core, spent"]}
{"id": "C03", "title": "Reactor orders exactly its vacancy", "statement": "With no scheduled exit, each exchange requests exactly one assem_size assembly for each vacant core or fresh position, each as one exclusive order offering all input commodities with the recipes and preferences in force; a retired reactor, or one with no vacancy, requests nothing.", "quantifier": "every configuration and every reachable state", "why_tests_cant": "Vacancy takes every combination of core and fresh counts over a run; tests look at a few totals.", "anchors": ["src/reactor.cc: GetMatlRequests"]}
{"id": "C04", "title": "A well-formed reactor never fails", "statement": "With a consistent configuration and a market that honours the exchange contract (deliver no more than requested, buy no more than offered), no reactor call throws and none indexes an empty or too short vector.", "quantifier": "every consistent configuration, every contract-honouring market, every length of run", "why_tests_cant": "Absence of a fault over all histories cannot be sampled; indexing an empty vector need not fail visibly in a test.", "anchors": ["src/reactor.cc: Tick, Tock, GetMatlTrades, AcceptMatlTrades, fuel_outcommod, fuel_outrecipe, index_res"]}
{"id": "C05", "title": "Power is produced only by a full core inside a cycle", "statement": "In each step of an unretired reactor exactly one power value is recorded: power_cap if the core is full and the current cycle has run for fewer than cycle_time steps, otherwise 0. A retired reactor records none.", "quantifier": "every step of every history", "why_tests_cant": "A test fixes one supplier schedule and a few dozen steps; the claim must hold for every schedule of deliveries and sales, and for every length of run.", "anchors": ["src/reactor.cc: Tock"]}
{"id": "C06", "title": "A started cycle runs for exactly cycle_time steps and is followed by at least refuel_time steps of outage", "statement": "If a cycle start is recorded at step t then power_cap is recorded at each of the cycle_time steps from t on, power 0 at each of the next refuel_time steps, and no other cycle start is recorded before t+cycle_time+refuel_time, as far as the reactor is not retired. Conversely every powered step lies within cycle_time steps after a recorded cycle start (or within the cycle the reactor was deployed in, if it was given a positive cycle_step).", "quantifier": "every history, every step t, every cycle_time and refuel_time", "why_tests_cant": "A test fixes one supplier schedule and a few dozen steps; the claim must hold for every schedule of deliveries and sales, and for every length of run.", "anchors": ["src/reactor.cc: Tick, Tock"]}
{"id": "C07", "title": "With prompt supply the cycle is periodic", "statement": "If no exit is scheduled, every request is filled in the step it is made and spent storage has room for every discharge, cycle starts are recorded at exactly the steps t0 + k*(cycle_time+refuel_time), t0 being the step of deployment.", "quantifier": "every configuration and every number of cycles k", "why_tests_cant": "Periodicity for ever is a liveness claim; a test sees a finite prefix.", "anchors": ["src/reactor.cc: Tick, Tock, GetMatlRequests, AcceptMatlTrades"]}
{"id": "C08", "title": "Fuel is transmuted at the end of its last cycle, and only then", "statement": "Fresh and in-core fuel keeps the composition it was delivered with until the end of a cycle. At the end of a cycle exactly the oldest n_assem_batch assemblies of the core change, each to the output recipe in force for the commodity it was bought as. Before retirement every assembly in spent storage has been transmuted.", "quantifier": "every history of an unretired reactor", "why_tests_cant": "A test fixes one supplier schedule and a few dozen steps; the claim must hold for every schedule of deliveries and sales, and for every length of run.", "anchors": ["src/reactor.cc: Transmute, Tick, Discharge, fuel_outrecipe"]}
{"id": "C09", "title": "Discharge is first-in first-out, one batch per cycle", "statement": "A successful discharge moves exactly min(n_assem_batch, core) assemblies, the ones longest in the core, to the end of spent storage in the same order; between two cycle starts at most one discharge succeeds, and it succeeds before the second start.", "quantifier": "every history of an unretired reactor", "why_tests_cant": "A test fixes one supplier schedule and a few dozen steps; the claim must hold for every schedule of deliveries and sales, and for every length of run.", "anchors": ["src/reactor.cc: Discharge, Tick, Tock"]}
{"id": "C10", "title": "A reactor with no room for spent fuel stalls", "statement": "If spent storage has no room for the next batch at cycle end, nothing leaves the core, no power is produced and no new cycle starts until room appears, however long that takes.", "quantifier": "every configuration and every length of stall", "why_tests_cant": "A test fixes one supplier schedule and a few dozen steps; the claim must hold for every schedule of deliveries and sales, and for every length of run.", "anchors": ["src/reactor.cc: Discharge, Tick, Tock"]}
{"id": "C11", "title": "Spent fuel is sold by commodity, oldest first", "statement": "Each sale of commodity c hands over the oldest held spent assembly whose output commodity is c; the unsold assemblies stay in spent storage, in unchanged relative order within each commodity.", "quantifier": "every spent inventory, every list of sales covered by it", "why_tests_cant": "The grouping, reversal and map-order reassembly must be right for every mix and order of commodities; a test tries one.", "anchors": ["src/reactor.cc: GetMatlTrades, PopSpent, PushSpent"]}
{"id": "C12", "title": "Only spent fuel is offered, never more than is held", "statement": "Every bid made by a reactor offers an assembly of its spent storage whose output commodity is the one requested, and the capacity of each commodity's offer is the total quantity of that commodity held.", "quantifier": "every reachable state and every set of outside requests", "why_tests_cant": "Depends on every mix of commodities and requests.", "anchors": ["src/reactor.cc: GetMatlBids, PeekSpent"]}
{"id": "C13", "title": "Near retirement the reactor orders no fuel it cannot burn, and enough to keep running", "statement": "With an exit time set, a reactor orders no more assemblies than its vacancy, and the core plus the order is enough to start every cycle that can still start before exit.", "quantifier": "every exit time, cycle length, batch and buffer size, and every reachable state", "why_tests_cant": "The bound mixes rounding and four counters; tests check one lifetime.", "anchors": ["src/reactor.cc: GetMatlRequests"]}
{"id": "C14", "title": "Retirement shuts the reactor down in order", "statement": "From the step after exit_time on, a reactor records no power and requests no fuel; in the first such step, and in no later one, it transmutes the oldest ceil(n_assem_core/2) core assemblies (all of them with decom_transmute_all); it is decommissioned only when its core and spent storage are empty.", "quantifier": "every history that reaches the exit time", "why_tests_cant": "A test fixes one supplier schedule and a few dozen steps; the claim must hold for every schedule of deliveries and sales, and for every length of run.", "anchors": ["src/reactor.cc: Tick, Tock, GetMatlRequests, CheckDecommissionCondition"]}
{"id": "C15", "title": "Decommissioning loses no fuel", "statement": "When a reactor reports that it may be decommissioned it holds no fuel at all.", "quantifier": "every reachable state after the exit time", "why_tests_cant": "Needs the interleaving of a full spent store, a late sale and left-over fresh fuel, which no test schedules.", "anchors": ["src/reactor.cc: CheckDecommissionCondition, Tick"]}
{"id": "C16", "title": "Scheduled preference and recipe changes take effect exactly on time", "statement": "A scheduled change of preference or recipe for a commodity alters the orders made at its step and all later ones until the next change, and none before; entries at other times and for other commodities have no effect, and the last entry of a step wins.", "quantifier": "every schedule and every step", "why_tests_cant": "The outcome depends on every combination of times and commodities.", "anchors": ["src/reactor.cc: Tick"]}
{"id": "C17", "title": "Inconsistent reactor input is rejected at deployment", "statement": "A reactor whose input vectors (fuel commodities, recipes and preferences; recipe changes; preference changes) do not have matching lengths is rejected with an error when it is deployed, and a consistent one is accepted.", "quantifier": "every combination of vector lengths", "why_tests_cant": "Infinitely many combinations of lengths.", "anchors": ["src/reactor.cc: EnterNotify"]}
{"id": "C18", "title": "Side products are recorded exactly with power", "statement": "In each step of an unretired reactor with side products, one record per side product is written: its configured quantity when power_cap is recorded, 0 when 0 is.", "quantifier": "every history", "why_tests_cant": "A test fixes one supplier schedule and a few dozen steps; the claim must hold for every schedule of deliveries and sales, and for every length of run.", "anchors": ["src/reactor.cc: RecordSideProduct, Tock, EnterNotify"]}
{"id": "C19", "title": "Storage conserves material", "statement": "After any history, material received by a Storage facility equals material held in its stages plus material handed over, nuclide by nuclide.", "quantifier": "every history of deliveries, sales and time steps", "why_tests_cant": "A test fixes one supplier schedule and a few dozen steps; the claim must hold for every schedule of deliveries and sales, and for every length of run.", "anchors": ["src/storage.cc: Tock, BeginProcessing_, ReadyMatl_, ProcessMat_"]}
{"id": "C20", "title": "Storage holds material for the residence time", "statement": "No material is offered for sale before residence_time steps have passed since the step it was received in.", "quantifier": "every history, every residence time, every item", "why_tests_cant": "A test fixes one supplier schedule and a few dozen steps; the claim must hold for every schedule of deliveries and sales, and for every length of run.", "anchors": ["src/storage.cc: Tock, BeginProcessing_, ReadyMatl_, ready_time"]}
{"id": "C21", "title": "Storage throughput limit", "statement": "In each step at most throughput kg becomes available for sale.", "quantifier": "every history, both discrete and continuous handling", "why_tests_cant": "A test fixes one supplier schedule and a few dozen steps; the claim must hold for every schedule of deliveries and sales, and for every length of run.", "anchors": ["src/storage.cc: ProcessMat_"]}
{"id": "C22", "title": "Storage total inventory limit", "statement": "The material in all stages together never exceeds max_inv_size, provided deliveries never exceed the free space the facility's tracker reports.", "quantifier": "every history", "why_tests_cant": "A test fixes one supplier schedule and a few dozen steps; the claim must hold for every schedule of deliveries and sales, and for every length of run.", "anchors": ["src/storage.cc: EnterNotify, Tock", "src/storage.h: inventory_tracker"]}
{"id": "C23", "title": "Storage serves in arrival order", "statement": "Material becomes available for sale in the order in which it was received.", "quantifier": "every history", "why_tests_cant": "A test fixes one supplier schedule and a few dozen steps; the claim must hold for every schedule of deliveries and sales, and for every length of run.", "anchors": ["src/storage.cc: BeginProcessing_, ReadyMatl_, ProcessMat_"]}
{"id": "C24", "title": "Discrete handling keeps batches whole", "statement": "With discrete_handling, every item that becomes available is one of the received items, neither split nor combined.", "quantifier": "every history", "why_tests_cant": "A test fixes one supplier schedule and a few dozen steps; the claim must hold for every schedule of deliveries and sales, and for every length of run.", "anchors": ["src/storage.cc: ProcessMat_"]}
{"id": "C25", "title": "Storage makes material available on time", "statement": "With no effective throughput limit, a batch received at step t is available for sale at the end of step t+residence_time (at the end of step t if residence_time is 0).", "quantifier": "every history and residence time", "why_tests_cant": "An eventuality for all histories.", "anchors": ["src/storage.cc: Tock"]}
{"id": "C26", "title": "Storage processing never fails", "statement": "With positive throughput no step of a storage facility throws.", "quantifier": "every history", "why_tests_cant": "A test fixes one supplier schedule and a few dozen steps; the claim must hold for every schedule of deliveries and sales, and for every length of run.", "anchors": ["src/storage.cc: Tock, ProcessMat_, ReadyMatl_"]}
{"id": "C27", "title": "Separations conserve every nuclide", "statement": "One processing step moves material from feed to the product streams and leftover so that, for each nuclide, the total over feed, streams and leftover is unchanged. Nothing it holds or sells ever contains a negative mass, whatever the efficiencies, so no inventory holds more of a nuclide than was received.", "quantifier": "every feed, every set of streams and efficiencies accepted at deployment, every fill level of the stream buffers", "why_tests_cant": "Ranges over all compositions and efficiencies.", "anchors": ["src/separations.cc: Tick, SepMaterial"]}
{"id": "C28", "title": "Separation efficiencies are honoured", "statement": "When no stream is limited by space, each stream receives from each nuclide of the processed feed exactly its efficiency fraction, where a nuclide entry overrides an element entry, and leftover receives the rest.", "quantifier": "every feed composition and stream table", "why_tests_cant": "Ranges over all compositions and efficiencies.", "anchors": ["src/separations.cc: SepMaterial, Tick"]}
{"id": "C29", "title": "Separations product and throughput limits", "statement": "No step processes more than throughput kg of feed, and no stream receives more than its remaining space.", "quantifier": "every state", "why_tests_cant": "Ranges over all fill levels.", "anchors": ["src/separations.cc: Tick"]}
{"id": "C30", "title": "Separations reject efficiencies above one", "statement": "A stream table that would send more than all of some nuclide to the streams is rejected at deployment.", "quantifier": "every stream table", "why_tests_cant": "Infinitely many tables.", "anchors": ["src/separations.cc: EnterNotify"]}
{"id": "C31", "title": "Separations request only what they can use", "statement": "A separations facility requests exactly its free feed space, and nothing when the space is negligible or when the feed in hand already covers its remaining lifetime at full throughput.", "quantifier": "every state and exit time", "why_tests_cant": "Ranges over all fill levels and times.", "anchors": ["src/separations.cc: GetMatlRequests"]}
{"id": "C32", "title": "Separations deliver what was traded, out of the right stream", "statement": "Each sale of a stream's commodity hands over exactly the traded quantity with the stream's composition and removes exactly that from that stream.", "quantifier": "every state and list of trades covered by the streams", "why_tests_cant": "Ranges over all lists of trades.", "anchors": ["src/separations.cc: GetMatlTrades"]}
{"id": "C33", "title": "Separations inventories survive a restart", "statement": "Restoring a snapshot of a separations facility yields the inventories it had.", "quantifier": "every state", "why_tests_cant": "Every crash point.", "anchors": ["src/separations.cc: SnapshotInv, InitInv"]}
{"id": "C34", "title": "Separations are decommissioned only when empty", "statement": "A separations facility reports it may be decommissioned exactly when all its product and leftover inventories are empty.", "quantifier": "every state", "why_tests_cant": "Ranges over all states.", "anchors": ["src/separations.cc: CheckDecommissionCondition"]}
{"id": "C35", "title": "Enrichment balances mass", "statement": "For each product delivered, feed removed equals product plus tails and the feed's U-235 equals the U-235 of product and tails, tails being at tails_assay.", "quantifier": "every feed assay above tails, every product assay above feed, every quantity", "why_tests_cant": "A continuum of assays and quantities.", "anchors": ["src/enrichment.cc: Enrich_"]}
{"id": "C36", "title": "Enrichment SWU limit", "statement": "The separative work spent on the products delivered in one step never exceeds swu_capacity; if the trades ignore the constraints of the bids, it exceeds it by no more than the tolerance of the check, or the step is refused.", "quantifier": "every list of trades in a step", "why_tests_cant": "Ranges over all lists of trades.", "anchors": ["src/enrichment.cc: Tick, GetMatlBids, Enrich_", "src/enrichment.h: SWUConverter"]}
{"id": "C37", "title": "Enrichment never overdraws its feed", "statement": "Trades that respect the constraints attached to an enrichment facility's bids can always be carried out from its feed inventory.", "quantifier": "every feed composition and every list of trades respecting the constraints", "why_tests_cant": "Ranges over all compositions and lists of trades.", "anchors": ["src/enrichment.cc: GetMatlBids, GetMatlTrades, Enrich_", "src/enrichment.h: NatUConverter"]}
{"id": "C38", "title": "Enrichment serves only feasible requests", "statement": "An enrichment facility offers product only for requests that contain U-235 and U-238 with an assay above tails and not above max_enrich, and delivers at the requested assay.", "quantifier": "every request", "why_tests_cant": "A continuum of compositions.", "anchors": ["src/enrichment.cc: GetMatlBids, ValidReq"]}
{"id": "C39", "title": "Enrichment prefers richer feed", "statement": "With order_prefs, offers of feed are ranked by their U-235 content: a bid with more U-235 never gets a lower preference, and bids without U-235 are refused.", "quantifier": "every set of bids", "why_tests_cant": "Every ordering of every set of bids.", "anchors": ["src/enrichment.cc: AdjustMatlPrefs, SortBids"]}
{"id": "C40", "title": "Enrichment requests exactly its free feed capacity", "statement": "Each exchange an enrichment facility requests the free space of its feed inventory if it is not negligible, and nothing otherwise.", "quantifier": "every state", "why_tests_cant": "Ranges over all fill levels.", "anchors": ["src/enrichment.cc: GetMatlRequests, Request_"]}
{"id": "C41", "title": "Enrichment records the work and feed of the step", "statement": "The separative work and feed recorded for a step are those used in that step.", "quantifier": "every history, including steps without sales", "why_tests_cant": "A test fixes one supplier schedule and a few dozen steps; the claim must hold for every schedule of deliveries and sales, and for every length of run.", "anchors": ["src/enrichment.cc: Tock, GetMatlTrades, Enrich_"]}
{"id": "C42", "title": "Fuel fabrication hits the target weight", "statement": "The fractions used to mix two streams are in [0,1], add up to 1 and reproduce the target's equivalence weight exactly, whenever the target lies between the weights of the two streams.", "quantifier": "all real weights", "why_tests_cant": "A continuum of weights.", "anchors": ["src/fuel_fab.cc: HighFrac, LowFrac, ValidWeights"]}
{"id": "C43", "title": "Atom to mass fraction conversion is exact", "statement": "Mixing by the converted mass fractions gives the requested atom fractions.", "quantifier": "all pairs of compositions and all fractions", "why_tests_cant": "A continuum.", "anchors": ["src/fuel_fab.cc: AtomToMassFrac"]}
{"id": "C44", "title": "Fuel fabrication delivers what was traded", "statement": "Each product delivered has exactly the traded quantity, and the streams are reduced by exactly that quantity.", "quantifier": "every state and list of trades", "why_tests_cant": "Ranges over all lists of trades.", "anchors": ["src/fuel_fab.cc: GetMatlTrades"]}
{"id": "C45", "title": "Fuel fabrication throughput", "statement": "In one step at most throughput kg of product is delivered; if the trades ignore the constraint of the bids, at most the tolerance more, or the step is refused.", "quantifier": "every list of trades", "why_tests_cant": "Ranges over all lists of trades.", "anchors": ["src/fuel_fab.cc: GetMatlBids, GetMatlTrades"]}
{"id": "C46", "title": "Fuel fabrication trades that fit the constraints can be carried out", "statement": "A list of trades within the constraints attached to the bids never overdraws a stream.", "quantifier": "every list of trades", "why_tests_cant": "Ranges over all lists of trades.", "anchors": ["src/fuel_fab.cc: GetMatlBids, GetMatlTrades, FissConverter, FillConverter, TopupConverter"]}
{"id": "C47", "title": "Fuel fabrication routes deliveries to the stream that asked", "statement": "Each delivery ends up in the stream whose request it answers, each stream is held as one homogenised material, and mass is conserved nuclide by nuclide.", "quantifier": "every list of deliveries", "why_tests_cant": "Ranges over all lists.", "anchors": ["src/fuel_fab.cc: AcceptMatlTrades, GetMatlRequests"]}
{"id": "C48", "title": "Equivalence weight is normalised", "statement": "The equivalence weight of pure U-238 is 0 and that of pure Pu-239 is 1 in both spectra, and that of a mixture is the average of its nuclides' weights.", "quantifier": "all compositions", "why_tests_cant": "A continuum.", "anchors": ["src/fuel_fab.cc: CosiWeight"]}
{"id": "C49", "title": "Mixer ratios are normalised", "statement": "After deployment the mixing ratios add up to 1 and are in the proportion configured; if all are zero they are equal.", "quantifier": "every list of non-negative ratios", "why_tests_cant": "A continuum.", "anchors": ["src/mixer.cc: EnterNotify"]}
{"id": "C50", "title": "Mixer output has the configured proportions", "statement": "Each step removes from every stream its ratio of the same total and adds that total, homogenised, to the output; material is conserved nuclide by nuclide.", "quantifier": "every state", "why_tests_cant": "Ranges over all fill levels.", "anchors": ["src/mixer.cc: Tick"]}
{"id": "C51", "title": "Mixer limits", "statement": "The amount mixed in one step is at most the throughput, the free output space and what each stream can supply at its ratio, and equals the least of them.", "quantifier": "every state", "why_tests_cant": "Ranges over all fill levels.", "anchors": ["src/mixer.cc: Tick"]}
{"id": "C52", "title": "Mixer inventories survive a restart", "statement": "Restoring a snapshot of a mixer yields the inventories it had.", "quantifier": "every state", "why_tests_cant": "Every crash point.", "anchors": ["src/mixer.cc: SnapshotInv, InitInv"]}
{"id": "C53", "title": "Mixer routes deliveries to the stream that asked", "statement": "Each delivery is added to the stream whose request it answers, and each stream with room requests exactly its free space.", "quantifier": "every list of deliveries", "why_tests_cant": "Ranges over all lists.", "anchors": ["src/mixer.cc: GetMatlRequests, AcceptMatlTrades"]}
{"id": "C54", "title": "Conversion conserves material and respects throughput", "statement": "Each step moves min(throughput, feed) from feed to product with its composition unchanged; received = feed + product + sold at all times.", "quantifier": "every history", "why_tests_cant": "A test fixes one supplier schedule and a few dozen steps; the claim must hold for every schedule of deliveries and sales, and for every length of run.", "anchors": ["src/conversion.cc: Convert, AcceptMatlTrades, GetMatlTrades"]}
{"id": "C55", "title": "Conversion offers no more than its product and asks for no more than its free feed space", "statement": "The capacity of each offer is the product in stock; the request is the free feed capacity; nothing is offered when there is no product.", "quantifier": "every state", "why_tests_cant": "Ranges over all states.", "anchors": ["src/conversion.cc: GetMatlBids, GetMatlRequests"]}
{"id": "C56", "title": "Source never ships more than its inventory", "statement": "Over its whole life a Source hands over at most inventory_size kg, and in each step at most throughput kg, provided trades respect the offered capacity.", "quantifier": "every history", "why_tests_cant": "A test fixes one supplier schedule and a few dozen steps; the claim must hold for every schedule of deliveries and sales, and for every length of run.", "anchors": ["src/source.cc: GetMatlBids, GetMatlTrades"]}
{"id": "C57", "title": "Source ships what was asked for", "statement": "A Source with a recipe ships material of that recipe, and one without ships the composition requested, in the traded quantity.", "quantifier": "every request and trade", "why_tests_cant": "Ranges over all trades.", "anchors": ["src/source.cc: GetMatlTrades"]}
{"id": "C58", "title": "Source offers cover its capacity in packages", "statement": "For each request with enough capacity the bids of a Source are whole packages that together do not exceed the requested quantity or the available capacity.", "quantifier": "every package size, request and inventory", "why_tests_cant": "A continuum.", "anchors": ["src/source.cc: GetMatlBids"]}
{"id": "C59", "title": "Sink never exceeds its capacity", "statement": "In each step a Sink asks for at most its capacity and at most its free space, so that deliveries of no more than requested never exceed max_inv_size.", "quantifier": "every history", "why_tests_cant": "A test fixes one supplier schedule and a few dozen steps; the claim must hold for every schedule of deliveries and sales, and for every length of run.", "anchors": ["src/sink.cc: GetMatlRequests, SpaceAvailable, SetRequestAmt, AcceptMatlTrades"]}
{"id": "C60", "title": "Sink buys at its configured frequency", "statement": "A Sink without random times requests in every step; with random times the next request falls a drawn number of steps, within the configured bounds, after the last, and no request in between.", "quantifier": "every period and random draw", "why_tests_cant": "All random sequences.", "anchors": ["src/sink.cc: Tick, SetNextBuyTime"]}
{"id": "C61", "title": "Deployment schedule is followed exactly", "statement": "A DeployInst schedules for each entry exactly n_build builds of its prototype at its build time with its lifetime, and nothing else.", "quantifier": "every schedule", "why_tests_cant": "Infinitely many schedules.", "anchors": ["src/deploy_inst.cc: Build"]}
{"id": "C62", "title": "Inconsistent deployment schedules are rejected", "statement": "A schedule whose lists differ in length (lifetimes may be omitted) is rejected with an error.", "quantifier": "every combination of lengths", "why_tests_cant": "Infinitely many.", "anchors": ["src/deploy_inst.cc: EnterNotify"]}
{"id": "C63", "title": "Managed producers are the live ones", "statement": "At all times the producers an institution counts towards supply are exactly the facilities built and not yet decommissioned that produce a commodity.", "quantifier": "every history of builds and decommissionings", "why_tests_cant": "A test fixes one supplier schedule and a few dozen steps; the claim must hold for every schedule of deliveries and sales, and for every length of run.", "anchors": ["src/manager_inst.cc: BuildNotify, DecomNotify, Register_, Unregister_", "src/deploy_inst.cc: BuildNotify, DecomNotify"]}
{"id": "C64", "title": "Growth region builds exactly when demand is unmet", "statement": "At each step a growth region orders builds for a commodity if and only if its demand at that time exceeds the supply capacity, and the ordered builds are those its build manager decides for the unmet amount.", "quantifier": "every demand function, supply and time", "why_tests_cant": "A continuum.", "anchors": ["src/growth_region.cc: Tick, OrderBuilds"]}
{"id": "C65", "title": "Growth region demand is the configured piecewise function", "statement": "The demand at time t is given by the last configured piece that has started, with later pieces continuing from the value at their start.", "quantifier": "every list of pieces and every time", "why_tests_cant": "Infinitely many.", "anchors": ["src/growth_region.cc: AddCommodityDemand_"]}
{"id": "C66", "title": "Reactor does not hold back fresh fuel", "statement": "Until its exit time, whenever trades are made and at the end of every step, a reactor's core is full or it has no fresh assembly in store.", "quantifier": "every configuration, supply history and step", "why_tests_cant": "Loading interacts with deliveries, discharges and stalls of every length; a test sees one schedule.", "anchors": ["src/reactor.cc: Tick, Load, AcceptMatlTrades"]}
{"id": "C67", "title": "Storage eventually releases what it receives", "statement": "With continuous handling, material is released at the full throughput while any is old enough, so everything received becomes available. With discrete handling the same holds if no item exceeds the throughput; an item that does is never released, nor is anything received after it.", "quantifier": "every history, of any length", "why_tests_cant": "An eventuality over unbounded histories, and an impossibility over all continuations.", "anchors": ["src/storage.cc: ProcessMat_, Tock"]}
{"id": "C68", "title": "Inconsistent storage input is rejected and the buy policy follows the input", "statement": "A storage facility is deployed exactly if it has one output commodity, as many preferences as input commodities (or none), a known recipe (or none), and room for the reorder quantity above the reorder point if it reorders fixed quantities. The buy policy is the one the reorder and cumulative parameters select.", "quantifier": "every configuration", "why_tests_cant": "All combinations of vector lengths and policy parameters.", "anchors": ["src/storage.cc: EnterNotify"]}
{"id": "C69", "title": "Storage reports match its state", "statement": "Each step reports the amount for sale as supply of the output commodity, and the free space as demand for the first input commodity of highest preference.", "quantifier": "every history", "why_tests_cant": "Must hold at every step of every history.", "anchors": ["src/storage.cc: Tock"]}
{"id": "C70", "title": "Separations keep running", "statement": "With sensible input, no step of a separations facility fails as long as the market only makes trades that answer its requests and bids; when an inventory is full it halts until space becomes available.", "quantifier": "every configuration, every history of honest trades, of any length", "why_tests_cant": "Unbounded histories and all fill levels.", "anchors": ["src/separations.cc: Tick, GetMatlRequests, GetMatlBids, GetMatlTrades, AcceptMatlTrades"]}
{"id": "C71", "title": "Feed that was not processed returns unchanged", "statement": "When a full product stream limits a separations step to a fraction of the feed it took, the unprocessed rest returns to the feed inventory with its composition unchanged.", "quantifier": "every feed, every fill level of the streams", "why_tests_cant": "Ranges over all compositions, efficiencies and fill levels.", "anchors": ["src/separations.cc: Tick"]}
{"id": "C72", "title": "Separations offer exactly what they hold", "statement": "A separations facility offers, to each request for one of its commodities, materials it holds in that inventory, oldest first, until the request is covered; the total is limited to the content of the inventory; and every inventory with a non-negligible content is offered if requested.", "quantifier": "every state and every set of requests", "why_tests_cant": "Ranges over all fill levels and request sets.", "anchors": ["src/separations.cc: GetMatlBids"]}
{"id": "C73", "title": "Separations records tell what happened", "statement": "Each step with feed records the amount taken for processing, the amount each stream gained, and the new contents of the streams and of leftover; a step without feed records nothing.", "quantifier": "every history", "why_tests_cant": "Must hold at every step of every history.", "anchors": ["src/separations.cc: Tick, Record"]}
{"id": "C74", "title": "Enrichment conserves every nuclide", "statement": "At any time the feed and tails an enrichment facility holds plus everything it has sold equal, nuclide by nuclide, what it started with plus everything it received.", "quantifier": "every history of deliveries and sales, every nuclide", "why_tests_cant": "Ranges over all histories and compositions.", "anchors": ["src/enrichment.cc: Build, AcceptMatlTrades, GetMatlTrades, Enrich_, FeedAssay"]}
{"id": "C75", "title": "Enrichment sells its tails as they are", "statement": "While there are tails, every item of tails is offered to every request for tails, under a constraint of the quantity held; a sale hands over the traded amount, or all tails if less, oldest first, and leaves the feed alone.", "quantifier": "every history, every list of requests and sales", "why_tests_cant": "Ranges over all histories and lists of requests.", "anchors": ["src/enrichment.cc: GetMatlBids, GetMatlTrades"]}
{"id": "C76", "title": "Enrichment feed limit", "statement": "If deliveries never exceed what was requested, the feed inventory never exceeds max_feed_inventory, unless the initial feed does (by the buffer's tolerance).", "quantifier": "every history in which the exchange respects requests and bids", "why_tests_cant": "Ranges over all histories.", "anchors": ["src/enrichment.cc: GetMatlRequests, AddMat_, Build"]}
{"id": "C77", "title": "Fuel fabrication asks for the free space of each stream", "statement": "In every step each stream whose free space is not negligible asks for exactly that space, with one alternative request per configured commodity at its preference; a stream without free space asks for nothing.", "quantifier": "every reachable state", "why_tests_cant": "Ranges over all histories.", "anchors": ["src/fuel_fab.cc: GetMatlRequests, EnterNotify"]}
{"id": "C78", "title": "Fuel fabrication bids on exactly the feasible requests", "statement": "A request is bid on, once, exactly if its weight lies between those of filler and fissile stream, or top-up is in stock and it lies between those of fissile and top-up stream; the compositions used are those of the stock, else of the recipe, else of the filler, and the constraints are the stocks and the throughput.", "quantifier": "every reachable state and every list of requests", "why_tests_cant": "A continuum of compositions and all histories.", "anchors": ["src/fuel_fab.cc: GetMatlBids"]}
{"id": "C79", "title": "Fabricated fuel has the requested weight", "statement": "Fuel delivered within the constraints of the bids has the equivalence weight of the request it answers, up to the tolerance used for fractions.", "quantifier": "every reachable state, every list of requests and of trades within the constraints", "why_tests_cant": "A continuum of compositions and all lists of trades.", "anchors": ["src/fuel_fab.cc: GetMatlBids, GetMatlTrades"]}
{"id": "C80", "title": "Fuel fabrication streams never exceed their size", "statement": "No stream ever holds more than its configured size, up to the buffer's tolerance.", "quantifier": "every history, whatever is delivered", "why_tests_cant": "Ranges over all histories.", "anchors": ["src/fuel_fab.cc: AcceptMatlTrades"]}
{"id": "C81", "title": "Fuel fabrication keeps running", "statement": "Requests and bids can always be made; deliveries within the requests are always accepted; a step with deliveries and sales within requests and constraints does not fail.", "quantifier": "every reachable state and every honest market", "why_tests_cant": "Ranges over all histories.", "anchors": ["src/fuel_fab.cc: GetMatlRequests, GetMatlBids, GetMatlTrades, AcceptMatlTrades"]}
{"id": "C82", "title": "Filler alone can be sold as fuel", "statement": "A facility that holds filler can trade it for fuel of the filler's own weight, charged to the filler's constraint.", "quantifier": "every reachable state and request", "why_tests_cant": "Ranges over all histories and compositions.", "anchors": ["src/fuel_fab.cc: GetMatlBids, FissConverter, FillConverter, HighFrac"]}
{"id": "C83", "title": "Fuel fabrication checks its preferences", "statement": "Deployment succeeds exactly if each list of preferences is empty or has one entry per commodity.", "quantifier": "every input", "why_tests_cant": "All lengths of two pairs of lists.", "anchors": ["src/fuel_fab.cc: EnterNotify"]}
{"id": "C84", "title": "Mixer conserves material", "statement": "Over any history of deliveries and sales, the mass of each nuclide received is the mass in the streams and the output plus the mass sold.", "quantifier": "every history", "why_tests_cant": "Every schedule of deliveries and sales, of any length.", "anchors": ["src/mixer.cc: Tick, AcceptMatlTrades"]}
{"id": "C85", "title": "Mixer never fails in an honest market", "statement": "If suppliers deliver no more than asked and buyers take no more than offered, every step of a mixer completes without an error.", "quantifier": "every history of possible trades", "why_tests_cant": "Every schedule, of any length.", "anchors": ["src/mixer.cc: Tick, GetMatlRequests, AcceptMatlTrades"]}
{"id": "C86", "title": "Mixer stores stay within their sizes", "statement": "The output never exceeds its size; no stream exceeds its buffer size if suppliers deliver no more than asked.", "quantifier": "every history", "why_tests_cant": "Every schedule, of any length.", "anchors": ["src/mixer.cc: Tick, GetMatlRequests, AcceptMatlTrades"]}
{"id": "C87", "title": "Conversion never exceeds its feed capacity", "statement": "If suppliers deliver no more than asked, the feed held by a conversion facility never exceeds input_capacity.", "quantifier": "every history of possible trades", "why_tests_cant": "Every schedule of deliveries and sales, of any length.", "anchors": ["src/conversion.cc: GetMatlRequests, AcceptMatlTrades, Convert"]}
{"id": "C88", "title": "Conversion never fails in an honest market", "statement": "If suppliers deliver no more than asked and buyers take no more than offered, every step of a conversion facility completes without an error.", "quantifier": "every valid input and every history of possible trades", "why_tests_cant": "Every schedule, of any length, and every input in the documented ranges.", "anchors": ["src/conversion.cc: Convert, AcceptMatlTrades, GetMatlTrades", "src/conversion.h: throughput"]}
{"id": "C89", "title": "Conversion works off its feed", "statement": "After k steps without deliveries the feed of a conversion facility is what it was less k times the throughput, or zero if that is negative.", "quantifier": "every history, every k", "why_tests_cant": "Every length of run.", "anchors": ["src/conversion.cc: Convert"]}
{"id": "C90", "title": "Conversion inventories survive a restart", "statement": "Restoring a snapshot of a conversion facility yields the inventories it had.", "quantifier": "every reachable state", "why_tests_cant": "Every crash point.", "anchors": ["src/conversion.cc: snapshotinv and initinv directives", "src/conversion.h: input, output"]}
{"id": "C91", "title": "Conversion requests no more than it can convert", "statement": "As documented for input_capacity, the amount requested per time step is the smaller of the throughput and the free feed capacity.", "quantifier": "every history", "why_tests_cant": "Ranges over all states.", "anchors": ["src/conversion.cc: GetMatlRequests", "src/conversion.h: input_capacity"]}
{"id": "C92", "title": "Source inventory falls by exactly what it sends", "statement": "The inventory of a Source after a step and what it sent in the step add up to the inventory before.", "quantifier": "every history and honest market", "why_tests_cant": "Ranges over all quantities, packages and trades.", "anchors": ["src/source.cc: GetMatlTrades"]}
{"id": "C93", "title": "Source resumes from a snapshot", "statement": "A snapshot of a Source leaves it as it is, and a Source restarted from it has the same inventory.", "quantifier": "every history and crash point", "why_tests_cant": "A test restarts at one point of one history.", "anchors": ["src/source.h: inventory", "src/source.cc: Build"]}
{"id": "C94", "title": "Source never fails in an honest market", "statement": "No step of a Source fails if the trades answer its bids and respect its constraint.", "quantifier": "every history and honest market", "why_tests_cant": "An exception may need a particular sequence of quantities.", "anchors": ["src/source.cc: GetMatlBids, GetMatlTrades"]}
{"id": "C95", "title": "Source reports the supply it has", "statement": "In each step the reported supply of a Source is the smaller of its throughput and its inventory.", "quantifier": "every history", "why_tests_cant": "All states.", "anchors": ["src/source.cc: GetMatlBids"]}
{"id": "C96", "title": "An exhausted Source stays silent", "statement": "Once less than the smallest tradable quantity is left, a Source never bids or sends again.", "quantifier": "every history and every continuation", "why_tests_cant": "A test looks at finitely many steps.", "anchors": ["src/source.cc: GetMatlBids"]}
{"id": "C97", "title": "Sink keeps everything it is given", "statement": "The inventory of a Sink is exactly what was delivered to it, unchanged and in order.", "quantifier": "every history of deliveries", "why_tests_cant": "All histories.", "anchors": ["src/sink.cc: AcceptMatlTrades, AcceptGenRsrcTrades"]}
{"id": "C98", "title": "Sink never fails in an honest market", "statement": "No step of a Sink fails if no more is delivered than it asked for.", "quantifier": "every history, random draw and delivery", "why_tests_cant": "Failures need particular combinations of draws, times and deliveries.", "anchors": ["src/sink.cc: Tick, SetRequestAmt, SetNextBuyTime, AcceptMatlTrades, AcceptGenRsrcTrades"]}
{"id": "C99", "title": "Random request sizes are drawn as configured", "statement": "With a random size type the amount a Sink asks for is drawn from that distribution, between zero and the room it has.", "quantifier": "every size type and random draw", "why_tests_cant": "A continuum of draws.", "anchors": ["src/sink.cc: SetRequestAmt", "src/sink.h: random_size_type"]}
{"id": "C100", "title": "Sink resumes from a snapshot", "statement": "A Sink restarted from a snapshot has the same inventory and goes on as it would have.", "quantifier": "every history and crash point", "why_tests_cant": "A test restarts at one point of one history.", "anchors": ["src/sink.h: inventory, nextBuyTime", "src/sink.cc: EnterNotify, SetNextBuyTime"]}
{"id": "C101", "title": "Sink requests and demand agree", "statement": "Whenever a Sink asks for anything it asks for the same amount of each of its commodities with their preferences, and records this amount as demand; otherwise it records and requests nothing.", "quantifier": "every history", "why_tests_cant": "All states.", "anchors": ["src/sink.cc: Tick, GetMatlRequests, GetGenRsrcRequests"]}
{"id": "C102", "title": "Inconsistent Sink preferences are rejected", "statement": "A Sink with a number of preferences other than zero and the number of commodities is rejected with an error; without preferences every commodity has the default.", "quantifier": "every pair of lists", "why_tests_cant": "Infinitely many.", "anchors": ["src/sink.cc: EnterNotify"]}
{"id": "C103", "title": "A full Sink stays silent", "statement": "Once there is no room, a Sink never asks for anything again and its inventory no longer grows.", "quantifier": "every history and every continuation", "why_tests_cant": "A test looks at finitely many steps.", "anchors": ["src/sink.cc: SetRequestAmt, GetMatlRequests"]}
{"id": "C104", "title": "Growth region capacity ledger", "statement": "Between two consecutive steps the capacity of a region's facilities for a commodity changes by exactly what the builds that it and its institutions scheduled add and what decommissionings take away; each build that was ordered in a step exists in the next one.", "quantifier": "every history, commodity and step", "why_tests_cant": "Histories are unbounded and mix builds, decommissionings, and institutions that come and go.", "anchors": ["src/growth_region.cc: Tick, OrderBuilds", "src/manager_inst.cc: BuildNotify, DecomNotify"]}
{"id": "C105", "title": "Unmet demand is met in the next step", "statement": "If the building manager's decisions cover the unmet demand they are made for, then in the next step the supply is at least the demand of this step less what was decommissioned in between.", "quantifier": "every history, demand function and decision procedure that covers the unmet demand", "why_tests_cant": "The demand functions form a continuum and the schedule of decommissionings is arbitrary.", "anchors": ["src/growth_region.cc: Tick, OrderBuilds"]}
{"id": "C106", "title": "The supply of a growth region is what exists", "statement": "The supply that a growth region compares with its demand is the total capacity of the facilities of its institutions that exist at that time.", "quantifier": "every history, commodity and step", "why_tests_cant": "Depends on the order in which agents enter, are built and leave.", "anchors": ["src/growth_region.cc: EnterNotify, DecomNotify, Tick", "src/deploy_inst.cc: EnterNotify, BuildNotify", "src/manager_inst.cc: EnterNotify"]}
{"id": "C107", "title": "Growth regions resume from a snapshot", "statement": "A simulation that is restarted with the agents and scheduled builds that it had goes on with the same facilities, supply and orders as without the interruption.", "quantifier": "every history, every point of interruption and every continuation", "why_tests_cant": "Any point of any history can be the point of interruption.", "anchors": ["src/growth_region.cc: EnterNotify", "src/manager_inst.cc: EnterNotify", "src/deploy_inst.cc: EnterNotify"]}
{"id": "C108", "title": "A well-formed growth region never fails", "statement": "If pieces start in increasing order, functions and prototypes exist, and orders name institutions that are there and prototypes that exist, then the simulation starts and no step fails.", "quantifier": "every such input and every schedule of builds, arrivals and departures", "why_tests_cant": "A test exercises one schedule.", "anchors": ["src/growth_region.cc: EnterNotify, Tick, OrderBuilds", "src/manager_inst.cc: EnterNotify"]}
{"id": "C109", "title": "Orders go to the institutions that can build", "statement": "The builders among which a growth region's building manager chooses are exactly the ManagerInsts that have been there from the start and have not left, each offering exactly those of its prototypes that produce a commodity.", "quantifier": "every history", "why_tests_cant": "Depends on every arrival and departure in the history.", "anchors": ["src/growth_region.cc: Register_, Unregister_", "src/manager_inst.cc: EnterNotify"]}
{"id": "C110", "title": "A reactor resumes from a snapshot", "statement": "Taking a snapshot of a reactor changes nothing, and a simulation that is stopped and restarted from it goes on exactly as if it had not been interrupted: same fresh, core and spent fuel, same place in the cycle, same preferences, recipes and bookkeeping.", "quantifier": "every well-formed configuration, every history of steps in a market that honours requests and bids, every point at which the snapshot is taken, every continuation", "why_tests_cant": "A test restarts at one point of one history.", "anchors": ["src/reactor.cc: InitFrom, EnterNotify, snapshot, initinv", "src/reactor.h: state variables"]}
{"id": "C111", "title": "A storage facility resumes from a snapshot", "statement": "Taking a snapshot of a storage facility changes nothing, and a facility restarted from it chooses the same buy policy, holds the same material in every stage with the same time of entry, and goes on as if it had not been interrupted.", "quantifier": "every accepted configuration, every history, every continuation", "why_tests_cant": "A test restarts at one point of one history.", "anchors": ["src/storage.cc: InitFrom, EnterNotify, snapshot, initinv", "src/storage.h: state variables"]}
{"id": "C112", "title": "An enrichment facility resumes from a snapshot", "statement": "Taking a snapshot of an enrichment facility changes nothing, and a facility restarted from it holds the same feed and tails and goes on as if it had not been interrupted, including the time series it records.", "quantifier": "every valid configuration, every history with deliveries that are not negligible, every continuation", "why_tests_cant": "A test restarts at one point of one history.", "anchors": ["src/enrichment.h: state variables, intra_timestep_swu_, intra_timestep_feed_, current_swu_capacity", "src/enrichment.cc: Tick, Tock, EnterNotify"]}
{"id": "C113", "title": "A fuel fabrication facility resumes from a snapshot", "statement": "Taking a snapshot of a fuel fabrication facility changes nothing, and a facility restarted from it holds the same streams and, whenever deliveries answer requests of the step, makes the same requests, bids and sales as if it had not been interrupted, although its table of requests is lost.", "quantifier": "every valid configuration, every history with deliveries that have mass, every continuation in which deliveries answer requests", "why_tests_cant": "A test restarts at one point of one history.", "anchors": ["src/fuel_fab.h: state variables, req_inventories_", "src/fuel_fab.cc: EnterNotify, GetMatlRequests, AcceptMatlTrades"]}
{"id": "C114", "title": "Nuclides are conserved across a simulation", "statement": "In a simulation with any number of facilities, deployed and decommissioned at any times, in which the exchange hands out exactly what it takes: for every nuclide, what all facilities hold at the end plus what was loaded into reactors equals what facilities were deployed with plus what sources sent plus what reactors gave away. No storage, separations, enrichment, fuel fabrication, mixer, conversion or sink creates or destroys a nuclide, and none is lost between facilities.", "quantifier": "every number and mix of facilities of all nine archetypes, valid configurations, deployment times, histories, exchanges, nuclides", "why_tests_cant": "A test runs one scenario and compares a few totals.", "anchors": ["src/*.cc: GetMatlTrades, AcceptMatlTrades, Tick, Tock of all facility archetypes"]}
{"id": "C115", "title": "Mass is conserved across a simulation", "statement": "In any such simulation the kg held at the end, in reactors and everywhere else, are exactly the kg the facilities were deployed with plus the kg that sources sent, whatever is burnt, separated, blended or enriched.", "quantifier": "every number and mix of facilities of all nine archetypes, valid configurations, deployment times, histories, exchanges", "why_tests_cant": "A test runs one scenario.", "anchors": ["src/*.cc: GetMatlTrades, AcceptMatlTrades, Tick, Tock of all facility archetypes", "src/reactor.cc: Transmute"]}
{"id": "C116", "title": "A simulation never holds more than its sources had", "statement": "In any simulation in which the exchange respects the bids of sources, the kg held at the end, in reactors and everywhere else, never exceed the kg the facilities were deployed with plus the configured inventories of the sources.", "quantifier": "every number and mix of facilities of all nine archetypes, valid configurations, deployment times, histories, exchanges that respect source bids", "why_tests_cant": "A test runs one scenario.", "anchors": ["src/source.cc: Build, GetMatlBids, GetMatlTrades", "src/*.cc: GetMatlTrades, AcceptMatlTrades of all facility archetypes"]}
{"id": "C117", "title": "Facilities announce what they can produce", "statement": "The capacity of a commodity that a deployed source, reactor or storage facility announces to institutions and regions is the configured one (throughput, power_cap, side product quantities), the same as that of its prototype, and zero for every other commodity; in no step does the facility supply more of a commodity than it announces. (False for a storage facility, which can sell in one step what it accumulated, and for side products that share a name.) A reactor prototype with a side product that has no quantity, and a storage prototype without output commodity, are undefined behaviour already when they are loaded.", "quantifier": "every configuration, history, market that respects the bids, step, commodity", "why_tests_cant": "Tests read the capacity of one prototype and never compare it with what is produced over all histories.", "anchors": ["src/source.cc: InitFrom", "src/reactor.cc: InitFrom, Tock", "src/storage.cc: InitFrom"]}
{"id": "C118", "title": "What a region produces never exceeds the supply it counts", "statement": "In a region whose institutions are ManagerInsts that are there from the start and whose facilities are sources and reactors, what all facilities together make of a commodity in a step never exceeds the supply that GrowthRegion compares with its demand.", "quantifier": "every history of the region, histories of its facilities, commodity, step", "why_tests_cant": "The claim combines all histories of a region with all histories of its facilities.", "anchors": ["src/growth_region.cc: Tick", "src/manager_inst.cc: Register, Unregister", "src/source.cc: InitFrom, GetMatlTrades", "src/reactor.cc: InitFrom, Tock"]}
{"id": "C119", "title": "The order in which a facility's sales are carried out does not matter", "statement": "If a facility is told the same set of trades of a time step in another order, each trade still gets its amount, the same is handed over in total, nuclide by nuclide, everything else that can be observed of the step is the same, and the facility holds the same at the end of it.", "quantifier": "every configuration, history, step with sales that the bids allow, and permutation of these sales", "why_tests_cant": "The exchange is free to order the trades in any way; the number of orders grows with the factorial of the number of trades, and each starts from any state a history can lead to.", "anchors": ["src/storage.cc: GetMatlTrades via sell_policy", "src/mixer.cc: sell_policy", "src/conversion.cc: GetMatlTrades", "src/separations.cc: GetMatlTrades", "src/reactor.cc: GetMatlTrades", "src/source.cc: GetMatlTrades", "src/enrichment.cc: GetMatlTrades", "src/fuel_fab.cc: GetMatlTrades"]}
{"id": "C120", "title": "The order in which a facility's deliveries arrive does not matter", "statement": "If the deliveries of a time step arrive in another order, the step succeeds as well, everything that can be observed of it is the same, and at the end of it the facility holds the same materials (for those that blend what they get: the same mass of each nuclide), in the same places but for a reactor that got more than its core takes, where the number of assemblies in each place is the same.", "quantifier": "every configuration, history, step with deliveries within the requests, and permutation of these deliveries", "why_tests_cant": "The exchange is free to order the deliveries in any way, from any state a history can lead to; a test fixes one order.", "anchors": ["src/sink.cc: AcceptMatlTrades, AcceptGenRsrcTrades", "src/conversion.cc: AcceptMatlTrades", "src/enrichment.cc: AcceptMatlTrades", "src/mixer.cc: AcceptMatlTrades", "src/separations.cc: AcceptMatlTrades", "src/storage.cc: buy_policy, Tock", "src/fuel_fab.cc: AcceptMatlTrades", "src/reactor.cc: AcceptMatlTrades"]}
{"id": "C121", "title": "What happens depends on the age of a facility, not on the date", "statement": "If a facility, institution or region enters the simulation some number of steps later, with everything that its input says about dates (end of life, schedules of changes and of builds, starts of demand) that much later as well, and meets the same requests, trades and random numbers, then it does the same that much later: the same requests, bids, deliveries, records and builds, and a failure where there was one.", "quantifier": "every input, delay and history", "why_tests_cant": "A test runs at a few dates; code that compares a date with a constant, or mixes dates and ages, can behave at these dates and not at others.", "anchors": ["src/reactor.cc: Tick, GetMatlRequests", "src/reactor.h: retired", "src/storage.cc: Tock, BeginProcessing_, ReadyMatl_", "src/separations.cc: GetMatlRequests", "src/sink.cc: Tick, SetNextBuyTime", "src/deploy_inst.cc: Build", "src/growth_region.cc: Tick, AddCommodityDemand_"]}
{"id": "C122", "title": "The events a reactor records add up", "statement": "At any time the number of assemblies in the core of a reactor is the total of its recorded loadings less the total of its recorded discharges. Until its exit time the fresh assemblies it has are those delivered and not recorded as loaded, and its spent assemblies those recorded as discharged and not shipped.", "quantifier": "every configuration, history and market, including stalls, partial loadings, retirement and deliveries beyond the requests", "why_tests_cant": "Users reconstruct inventories from the event table; an event with a wrong count, or a movement without one, shows only along particular sequences of full and partial loadings, failed discharges and deliveries straight into the core.", "anchors": ["src/reactor.cc: Discharge, Load, AcceptMatlTrades, Record"]}
{"id": "C123", "title": "A reactor never exceeds its design capacity factor", "statement": "Over any stretch of n consecutive time steps a reactor records in total at most the power that a reactor records in its first n steps if it runs cycle_time steps at power_cap and refuels refuel_time steps by turns without delay; in the long run, the fraction cycle_time / (cycle_time + refuel_time) of its capacity. With prompt supply, room for spent fuel and no exit it records exactly that.", "quantifier": "every consistent configuration, history in an honest market, and stretch of steps", "why_tests_cant": "The sum is over histories of any length with any pattern of stalls, late deliveries and retirement; skipping one refuelling after one such pattern would break it.", "anchors": ["src/reactor.cc: Tick, Tock", "src/reactor.h: cycle_step, cycle_time, refuel_time, power_cap"]}
{"id": "C124", "title": "Energy takes fuel", "statement": "Each cycle that a reactor begins after the first needs a further batch of fuel beyond its first core: with k cycles begun at least a core and k - 1 batches were delivered. Each cycle gives at most cycle_time steps at full power. Hence the energy recorded in a life is bounded by the fuel delivered.", "quantifier": "every consistent configuration and history in an honest market", "why_tests_cant": "A history of any length with stalls, partial loadings and late deliveries would have to be free of any way to begin a cycle without having replaced a batch.", "anchors": ["src/reactor.cc: Tick, Tock, Discharge, Load", "src/reactor.h: n_assem_batch, n_assem_core, cycle_time"]}
{"id": "C125", "title": "A simulation never stops with an error", "statement": "A simulation of any number of sources, conversions, enrichment facilities, reactors, separations, fuel fabrications, mixers, storages and sinks runs for any number of time steps whatever deals the exchange makes within the published requests and offers: every facility can publish its requests and offers in every step, every deal is delivered in exactly the amount agreed, and every delivery is accepted.", "quantifier": "every list of sensible prototypes, every exchange that respects requests and offers (different in every step), every number of steps", "why_tests_cant": "What one facility hands over is what another accepts, with compositions, quantities and orders that no single archetype's tests produce; the property is about every network and every choice of the exchange.", "anchors": ["src/source.cc", "src/conversion.cc", "src/enrichment.cc", "src/reactor.cc", "src/fuel_fab.cc", "src/separations.cc", "src/mixer.cc", "src/storage.cc", "src/sink.cc: GetMatlRequests, GetMatlBids, GetMatlTrades, AcceptMatlTrades, Tick, Tock"]}
{"id": "C126", "title": "A closed simulation keeps its total mass", "statement": "At any time in such a simulation what all facilities hold adds up to what the sources and enrichment facilities held at the start; no transfer, enrichment, transmutation, separation or mixing creates or destroys mass.", "quantifier": "every list of sensible prototypes, every exchange that respects requests and offers, every number of steps", "why_tests_cant": "A loss or gain in any facility at any step of any network would show only for some interplay of deals.", "anchors": ["src/source.cc", "src/conversion.cc", "src/enrichment.cc", "src/reactor.cc", "src/fuel_fab.cc", "src/separations.cc", "src/mixer.cc", "src/storage.cc", "src/sink.cc: GetMatlTrades, AcceptMatlTrades, Tick, Tock"]}
{"id": "C127", "title": "Agreements on commodities hold throughout a simulation", "statement": "If every prototype of such a simulation requests in each commodity only what is agreed upon for it and, as long as it receives what is agreed upon, hands over what is agreed upon, then everything that is ever delivered is as agreed: for instance feed of one assay from the mine through conversion and storage to enrichment, and fuel that is nothing but uranium.", "quantifier": "every agreement that says for each commodity what may be requested and what may be delivered, every list of sensible prototypes that suit it, every exchange that respects requests and offers, every number of steps", "why_tests_cant": "Compositions travel through buffers where they are split and mixed with others in every order; that none of these ways leads out of the agreement is a statement about all networks and histories.", "anchors": ["src/source.cc", "src/conversion.cc", "src/enrichment.cc", "src/reactor.cc", "src/fuel_fab.cc", "src/separations.cc", "src/mixer.cc", "src/storage.cc: GetMatlTrades, AcceptMatlTrades, Tick, Tock"]}
{"id": "C128", "title": "A closed simulation without reactors keeps every nuclide", "statement": "At any time in a closed simulation without reactors, and whose sources have recipes, what all facilities together hold of a nuclide is what the sources and enrichment facilities held of it at the start: converting, enriching, separating, fabricating fuel, mixing and storing move nuclides between facilities and streams but neither create, destroy nor change them.", "quantifier": "every list of sensible prototypes other than reactors, every exchange that respects requests and offers, every number of steps, every nuclide", "why_tests_cant": "Total mass can balance while isotopes are swapped; that the balance holds for each nuclide across all facilities, splits and mixtures is a statement about all networks and histories.", "anchors": ["src/source.cc", "src/conversion.cc", "src/enrichment.cc", "src/fuel_fab.cc", "src/separations.cc", "src/mixer.cc", "src/storage.cc", "src/sink.cc: GetMatlTrades, AcceptMatlTrades, Tick, Tock"]}
{"id": "C129", "title": "Facilities may come and go without stopping a simulation", "statement": "Facilities of any sensible prototypes are built at the start of any steps and decommissioned at the end of any steps in which they agree to it. Whatever an exchange does that respects requests and offers, no step fails: what is due is built, every facility publishes requests and offers, and every deal is delivered in the amount agreed. At any time the facilities that are present together with those that have left are exactly those that were built.", "quantifier": "every schedule of builds, every choice of facilities to be decommissioned, every exchange that respects requests and offers, every number of steps", "why_tests_cant": "A facility that enters in the middle of a history meets partners in states that no test prepares, and one that leaves takes its orders and offers out of the market at any point; only an invariant covers all schedules.", "anchors": ["src/source.cc", "src/conversion.cc", "src/fuel_fab.cc", "src/enrichment.cc", "src/reactor.cc: CheckDecommissionCondition", "src/separations.cc: CheckDecommissionCondition", "src/mixer.cc", "src/storage.cc", "src/sink.cc: EnterNotify, GetMatlTrades, AcceptMatlTrades, Tick, Tock"]}
{"id": "C130", "title": "Nothing is lost but what retired facilities take with them", "statement": "At any time in such a simulation, what the facilities hold together with what those that have left held when they left is in total what all that were built held at their start; without reactors this is so for each nuclide. A reactor that agrees to be decommissioned takes nothing with it but fresh fuel, and a separations facility nothing but feed.", "quantifier": "every schedule of builds, every choice of facilities to be decommissioned, every exchange that respects requests and offers, every number of steps, every nuclide", "why_tests_cant": "Ranges over all schedules and histories; a loss at retirement shows only in particular interleavings of discharges, sales and the end of a lifetime.", "anchors": ["src/source.cc", "src/conversion.cc", "src/fuel_fab.cc", "src/enrichment.cc", "src/reactor.cc: CheckDecommissionCondition", "src/separations.cc: CheckDecommissionCondition", "src/mixer.cc", "src/storage.cc", "src/sink.cc: EnterNotify, GetMatlTrades, AcceptMatlTrades, Tick, Tock"]}
{"id": "C131", "title": "What institutions schedule is what runs", "statement": "If institutions with deployment schedules are accepted, and the prototypes they deploy are sensible, the simulation never fails, and at any time the facilities that were ever present are those built otherwise and those the lines of the schedules plan up to that time, with the number, the lifetime and the date of their lines.", "quantifier": "every list of deployment schedules, every assignment of sensible inputs to prototypes, every exchange that respects requests and offers, every number of steps", "why_tests_cant": "Composes the scheduling of any number of institutions with the behaviour of all the facilities they build over any number of steps.", "anchors": ["src/deploy_inst.cc: Build, EnterNotify", "src/source.cc", "src/fuel_fab.cc", "src/conversion.cc", "src/enrichment.cc", "src/reactor.cc: CheckDecommissionCondition", "src/separations.cc: CheckDecommissionCondition", "src/mixer.cc", "src/storage.cc", "src/sink.cc: EnterNotify, GetMatlTrades, AcceptMatlTrades, Tick, Tock"]}
{"id": "C132", "title": "A facility in a simulation behaves as it does in a market of its own", "statement": "The life of every facility in a simulation is a history of its archetype in a market that respects its requests and offers, in which it receives and hands over, in this order, exactly what it receives and hands over in the simulation. So everything that is guaranteed for such histories is guaranteed in simulations: for instance a source gives no more than it began with, and a sink keeps what it was given and never has more than its maximum. What a facility has is always what it had at the start, and what it was given, without what it gave; where nothing is transmuted this is so for each nuclide.", "quantifier": "every list of sensible prototypes, every exchange that respects requests and offers, every number of steps, every facility; also where facilities come and go", "why_tests_cant": "Ranges over all simulations and histories of deals; the order of offers, sales, requests and deliveries among many facilities cannot be enumerated.", "anchors": ["src/source.cc", "src/conversion.cc", "src/fuel_fab.cc", "src/enrichment.cc", "src/reactor.cc: CheckDecommissionCondition", "src/separations.cc: CheckDecommissionCondition", "src/mixer.cc", "src/storage.cc", "src/sink.cc: EnterNotify, GetMatlTrades, AcceptMatlTrades, Tick, Tock"]}
{"id": "C133", "title": "A simulation goes on after a restart as it would have without it", "statement": "At any time a snapshot of all facilities can be taken, and taking it changes nothing. A simulation that is read from it goes on as the other: all facilities have the same, and in all later steps the deals, what is handed over, who leaves and what all facilities have are the same. This fails with conversions that have product, mixers and separations facilities, whose stocks come back changed.", "quantifier": "every plan of sensible prototypes that come and go, every exchange that respects requests and offers, every time of the snapshot and every number of steps after it", "why_tests_cant": "The state at the snapshot is any reachable state of any number of facilities, and all later requests and offers must agree, so that any exchange makes the same deals.", "anchors": ["src/source.cc", "src/conversion.h", "src/fuel_fab.h", "src/enrichment.h", "src/reactor.cc: SnapshotInv, InitInv, Snapshot", "src/separations.cc: SnapshotInv, InitInv", "src/mixer.h", "src/storage.h", "src/sink.cc: EnterNotify"]}
{"id": "C134", "title": "A growth region and its facilities in one simulation", "statement": "A region orders facilities for its demand, and the facilities that are built for it trade and work. The simulation never fails, whatever the building manager decides and whoever is decommissioned; everything that the region orders is at work in the next step; the facilities that the region counts are the facilities at work, and the supply it sees is what they can make; and if the decisions of the building manager cover what is missing, then in the next step the facilities at work can make what is demanded in this one, up to what is decommissioned in between.", "quantifier": "every region with usable input, every assignment of sensible inputs to prototypes, every sequence of decisions, scheduled builds and decommissionings, every exchange that respects requests and offers, every number of steps", "why_tests_cant": "Closes the loop between the demand of a region and the behaviour of facilities: what is built depends on what is at work, and who leaves depends on the trades, in all histories.", "anchors": ["src/growth_region.cc: Tick, OrderBuilds, EnterNotify", "src/manager_inst.cc: BuildNotify, DecomNotify, EnterNotify", "src/source.cc: InitFrom", "src/reactor.cc: InitFrom, CheckDecommissionCondition", "src/storage.cc: InitFrom"]}
{"id": "C135", "title": "Facilities keep the limits of their input in simulations", "statement": "In a simulation of facilities that trade with each other, the stores of every facility are at all times within the sizes of its input (feed, product, streams, fuel assemblies, inventories), exactly and not only up to a tolerance; a facility with a throughput gives in any number of steps no more than that number times its throughput, a source or fuel fabrication in no step more than its throughput; a sink is given in no step more than its capacity, a conversion, enrichment or separations facility never more than its store for feed; and what a storage facility gives it was given more than its residence time before. This holds too for facilities that are built and decommissioned in the course of the simulation.", "quantifier": "all lists of sensible prototypes (or plans that build them), every exchange that respects requests and offers, every number of steps, every facility", "why_tests_cant": "The limits are observed only together with the exchange: whether a store overflows depends on what all others offered and requested in all steps before.", "anchors": ["src/source.cc: GetMatlBids, GetMatlTrades", "src/sink.cc: GetMatlRequests, AcceptMatlTrades", "src/storage.cc: Tick, Tock, ProcessMat_, ReadyMatl_", "src/conversion.cc: Tick, GetMatlRequests, GetMatlTrades", "src/separations.cc: Tick, GetMatlRequests, AcceptMatlTrades", "src/mixer.cc: Tick, GetMatlRequests, AcceptMatlTrades", "src/enrichment.cc: GetMatlRequests, AcceptMatlTrades", "src/fuel_fab.cc: GetMatlRequests, GetMatlBids, AcceptMatlTrades", "src/reactor.cc: GetMatlRequests, AcceptMatlTrades, Load, Discharge"]}
{"id": "C136", "title": "With ample supply, reactors in a simulation run on schedule", "statement": "If a source can fill all reactors of a simulation in one step and does not run out, a sink can take all their spent fuel and does not get full, and the exchange leaves no exclusive order or bid alone that it could still serve, then every reactor runs on schedule: it is given its first core and its stock of fresh fuel in the first step and exactly a batch at the end of each cycle, gives exactly a batch of spent fuel in that same step, starts a cycle every cycle_time + refuel_time steps, records power_cap in every step of a cycle and no power while refuelling, never fails to discharge, and over the whole time records as much power as is possible at all.", "quantifier": "all lists of sensible prototypes with any number of reactors of any sizes and cycles beside any other facilities that do not trade in their fuel, every exchange that respects requests and offers and serves exclusive orders when it can, every number of steps", "why_tests_cant": "A liveness property of the whole: that no reactor waits depends on the orders of all reactors in all steps and on what the exchange may leave out, for all fleets and all numbers of steps.", "anchors": ["src/reactor.cc: Tick, Tock, GetMatlRequests, GetMatlBids, GetMatlTrades, AcceptMatlTrades, Load, Discharge, Transmute", "src/source.cc: GetMatlBids, GetMatlTrades", "src/sink.cc: GetMatlRequests, AcceptMatlTrades"]}
{"id": "C137", "title": "Trade follows the commodities of the input", "statement": "Whatever is handed over in a simulation is handed over in a commodity that the supplier sells and the receiver buys according to their input. A facility whose commodities nobody buys never gives anything, one whose commodities nobody sells is never given anything, and a group of facilities that neither sells what others buy nor buys what others sell keeps its total mass whatever happens elsewhere.", "quantifier": "all lists of sensible prototypes, every exchange that respects requests and offers, every number of steps, every facility and every group of facilities", "why_tests_cant": "Ranges over all prototypes, all exchanges and all histories; a single wrong commodity in one request or bid in one state would break it.", "anchors": ["src/conversion.cc: GetMatlRequests, GetMatlBids", "src/enrichment.cc: GetMatlRequests, GetMatlBids", "src/fuel_fab.cc: GetMatlRequests, GetMatlBids", "src/mixer.cc: GetMatlRequests, EnterNotify", "src/reactor.cc: GetMatlRequests, GetMatlBids", "src/separations.cc: GetMatlRequests, GetMatlBids", "src/sink.cc: GetMatlRequests", "src/source.cc: GetMatlBids", "src/storage.cc: EnterNotify"]}
{"id": "C138", "title": "All that can be traded is traded", "statement": "In every step of a simulation whose exchange leaves no possible trade alone, either all sources of a commodity give all they can (their throughput or the rest of their stock), or all sinks for it are given all they take (their capacity or the rest of their room). Where only sources sell and only sinks for it buy the commodity, the amount traded in the step is the smaller one of total supply and total demand; as long as there is material and room it is the same in every step, the smaller one of all throughputs and all capacities. If the sinks take at least as much as the sources give and have room, every source gives its throughput in every step until its stock is used up.", "quantifier": "all lists of sensible prototypes, every exchange that respects requests and offers and leaves no trade of arbitrary amount undone, every number of steps, every step and every commodity", "why_tests_cant": "Ranges over all sets of facilities and all exchanges with that property, and over all histories; the stock and the room at each step depend on everything traded before.", "anchors": ["src/source.cc: GetMatlBids, GetMatlTrades", "src/sink.cc: GetMatlRequests, SetRequestAmt, AcceptMatlTrades"]}
{"id": "C139", "title": "Facilities that share no commodities do not influence each other", "statement": "If no facility of one group sells a commodity that a facility of the other group buys, then in a simulation of both each group behaves as in a simulation of its own. When the exchange deals with each group as in two separate simulations, the common one goes well if and only if both separate ones do, and has exactly their deals and their facilities' states; replacing the other group by any third group with which there is nothing to trade changes nothing. Under any exchange at all, whatever happens to a group can happen to it alone, and if both groups have sensible input nothing fails even if the groups disagree about what a commodity contains.", "quantifier": "all pairs of lists of prototypes with any input, every exchange in which who offers a commodity hands it over to who asks for it, every number of steps", "why_tests_cant": "Ranges over all facilities, states and exchanges: a facility that took notice of a request for something it does not sell, or of how many requests there are in all, would break it in some history only.", "anchors": ["src/conversion.cc: GetMatlBids", "src/enrichment.cc: GetMatlBids", "src/fuel_fab.cc: GetMatlBids", "src/reactor.cc: GetMatlBids", "src/separations.cc: GetMatlBids, Tick", "src/source.cc: GetMatlBids", "src/mixer.cc: GetMatlRequests", "src/sink.cc: GetMatlRequests", "src/storage.cc: EnterNotify"]}
{"id": "C140", "title": "With ample enrichment, reactors run on schedule", "statement": "In a simulation with an enrichment facility whose feed and separative work capacity suffice for its reactors (per kilogram of any product that it can be asked for no more than a fixed amount of feed and of work, the work capacity enough for all the reactors in a step, the initial feed enough for all the steps), a sink for their spent fuel, and an exchange that leaves no exclusive order or bid undone that the constraints allow, every reactor whose fuel recipes the facility can make is given exactly the assemblies that its cycle calls for in each step, ships exactly the batches that it discharged, is on power exactly in the steps of its cycles, and its total energy is the power times the number of those steps. Feed that the facility buys meanwhile, and tails that it sells, change nothing about that.", "quantifier": "all lists of sensible prototypes with such an enrichment facility and sink, every exchange with that property, every number of steps and every reactor whose cycle starts at its first step and that has no scheduled exit", "why_tests_cant": "Ranges over all fleets, exchanges and histories: an enrichment facility that reserved too much work or feed, converted amounts by the wrong assay, refused a feasible order or lost feed would starve a reactor in some history only.", "anchors": ["src/enrichment.cc: GetMatlBids, GetMatlTrades, Enrich_, Offer_, ValidReq, AddMat_", "src/enrichment.h: SWUConverter, NatUConverter", "src/reactor.cc: GetMatlRequests, Tick, Tock"]}
{"id": "C141", "title": "With a mine that keeps up, the whole front end of the fuel cycle runs on schedule", "statement": "In a simulation with a mine, an enrichment facility, reactors and a sink for their spent fuel, if the mine gives per step as much feed as the enrichment facility can use for all its reactors and does not run out, the enrichment facility starts with feed for one step, has room for the feed of two and enough separative work, and the exchange leaves no trade undone that the constraints allow, then every reactor whose fuel recipes the facility can make is given exactly the assemblies that its cycle calls for in each step, ships exactly the batches that it discharged, is on power exactly in the steps of its cycles, and its total energy is the power times the number of those steps, however long the simulation lasts.", "quantifier": "all lists of sensible prototypes with such a mine, enrichment facility and sink, every exchange with that property, every number of steps for which the mine lasts and every reactor whose cycle starts at its first step and that has no scheduled exit", "why_tests_cant": "Ranges over all fleets, exchanges and histories: a facility that asked for less feed than it has room for, a source that offered less than its throughput or an enrichment facility that used up more feed than its product needs would starve a reactor, perhaps after hundreds of steps only.", "anchors": ["src/source.cc: GetMatlBids, GetMatlTrades", "src/enrichment.cc: GetMatlRequests, AcceptMatlTrades, Request_, AddMat_, GetMatlBids, GetMatlTrades, Enrich_", "src/reactor.cc: GetMatlRequests, Tick, Tock", "src/sink.cc: GetMatlRequests"]}
{"id": "C142", "title": "No facility of a simulation ever holds a negative mass or gives more than it had", "statement": "In a simulation of several facilities, no piece of material that a facility holds ever has a negative mass of any nuclide, and no facility has ever handed over more, in total, than what it started with and what it was given.", "quantifier": "all lists of sensible prototypes of the nine archetypes, all exchanges that respect requests and offers, all numbers of steps and all facilities", "why_tests_cant": "Ranges over all fleets and histories: a facility that extracts more than there is, enriches below its tails assay or splits a stream by fractions above one would go into debt only in particular states of its inventories.", "anchors": ["src/source.cc: GetMatlTrades", "src/enrichment.cc: Enrich_, GetMatlTrades", "src/fuel_fab.cc: GetMatlTrades", "src/separations.cc: Tick, GetMatlTrades", "src/mixer.cc: Tick", "src/storage.cc: ProcessMat_", "src/conversion.cc: Tick", "src/reactor.cc: Discharge, GetMatlTrades"]}
{"id": "C143", "title": "No energy without fuel: in an open fuel cycle energy is bounded by burn-up and the initial mass", "statement": "In a simulation, the energy a reactor has generated is at most its burn-up (its power times cycle_time, per mass of a batch) times the mass of fuel it has received. If what reactors sell only ever reaches facilities that pass nothing on to reactors, all reactors together receive at most the mass there was when the simulation began, and so all the energy of the simulation is at most the largest burn-up times that mass, however long it runs. If a reactor buys what reactors sell, the same fuel can be used again.", "quantifier": "all lists of sensible prototypes, all exchanges that respect requests and offers, all numbers of steps, reactors deployed at the beginning of a cycle with non-negative power", "why_tests_cant": "A bound on the total energy of any fleet over any length of time: a reactor that ran a cycle without a full core, reused a batch that it had discharged, or kept an assembly it had shipped would break it in some histories only.", "anchors": ["src/reactor.cc: Tick, Tock, Discharge, Load, GetMatlRequests, AcceptMatlTrades, GetMatlTrades", "src/source.cc: GetMatlTrades", "src/enrichment.cc: Enrich_", "src/sink.cc: AcceptMatlTrades"]}
{"id": "C144", "title": "Every facility of a changing fleet has an account that adds up", "statement": "In a simulation in which facilities are built in any step and leave in any step, for every facility that is or was there, what it received and handed over in each step since it was built is a history of its archetype, and everything handed over in the simulation was handed over by exactly one facility and received by exactly one. At any time what a facility has is what it was built with and what it received, less what it handed over; no piece of it has a negative mass of any nuclide, and it has never handed over more than that. In all the steps since it was built it has handed over at most that number times its throughput, in no step a source or fuel fabrication more than its throughput, in no step was it given more than its capacity, and storage has handed over only what it was given more than the residence time before.", "quantifier": "all plans of building and leaving of sensible prototypes, all exchanges that respect requests and offers, all numbers of steps, all facilities including those that have left", "why_tests_cant": "Ranges over all fleets, dates of building and leaving and histories of trade. A facility that is built late, or whose number changes when another leaves, takes part in every step with others than before; any of them could be served with the state, time or deals of another.", "anchors": ["src/deploy_inst.cc: Build", "src/reactor.cc: EnterNotify, Tick, Tock, CheckDecommissionCondition", "src/separations.cc: CheckDecommissionCondition", "src/storage.cc: Tock, ProcessMat_, ready_time", "src/source.cc: GetMatlTrades", "src/sink.cc: AcceptMatlTrades"]}
{"id": "C145", "title": "No energy without fuel while the fleet changes", "statement": "In a simulation in which facilities come and go, every reactor that is or was there has generated at most its burn-up times the mass of fuel it received. If the commodities of the back end can be told from the others, so that reactors sell only these and buy none of them, and who buys one of them sells only these, then all reactors that ever were there together received at most the mass with which all facilities were built, and generated at most the largest burn-up times that mass, however long the simulation runs.", "quantifier": "all plans of building and leaving of sensible prototypes, all exchanges that respect requests and offers, all numbers of steps, reactors deployed at the beginning of a cycle with non-negative power", "why_tests_cant": "A bound on the total energy of any changing fleet over any length of time: a reactor that left with fuel in its core and was replaced, fuel that was counted for two reactors, or a reactor that started without a full core would break it in some histories only.", "anchors": ["src/reactor.cc: Tick, Tock, Discharge, Load, GetMatlRequests, AcceptMatlTrades, GetMatlTrades, CheckDecommissionCondition", "src/source.cc: GetMatlTrades", "src/enrichment.cc: Enrich_", "src/deploy_inst.cc: Build"]}
{"id": "C146", "title": "The whole front end of the fuel cycle runs on schedule", "statement": "A mine, any number of conversions one after the other, an enrichment facility, reactors and a sink for their spent fuel: if the mine and each of the conversions can pass on in a time step what the enrichment facility uses in one, nobody else buys on the way, the enrichment facility can supply its reactors and starts with feed for one step and one more for each conversion, the sink can take the spent fuel, and the exchange leaves no trade alone that the constraints allow, then every reactor runs on schedule for as long as the mine has ore: it receives its batches when they are due, never waits, and generates exactly the energy of an uninterrupted run.", "quantifier": "all simulations of sensible prototypes among which there are a mine, a chain of conversions of any length, an enrichment facility and a sink with these properties, all fair, keen and thorough exchanges, all numbers of steps", "why_tests_cant": "Ranges over all lengths of the chain, all fleets, all exchanges and all numbers of steps. A conversion that passes its product on a step later than it could, keeps part of it, or asks for less than it has room for starves the reactors only after the stock at the beginning is used up, which may take any number of steps.", "anchors": ["src/conversion.cc: Tick, Convert, GetMatlRequests, GetMatlBids, GetMatlTrades, AcceptMatlTrades", "src/source.cc: GetMatlBids", "src/enrichment.cc: GetMatlRequests, AcceptMatlTrades, GetMatlBids, Enrich_", "src/reactor.cc: Tick, Tock, GetMatlRequests", "src/sink.cc: GetMatlRequests"]}
{"id": "C147", "title": "A reactor that is built later runs on schedule, too", "statement": "In a simulation in which facilities are built and leave in any step, a reactor without a last step, built at the beginning of a cycle in any step, runs on schedule from that step to the end, if in every step since there are a source that can supply all the reactors then present and a sink that can take their spent fuel, and the exchange leaves no exclusive order or bid alone: it is given its first core and its stock of fresh fuel in its first step and then a batch at the end of every cycle, gives a batch of spent fuel in the same step, starts a cycle whenever its cycle time and refuelling time provide for, counted from the step in which it was built, records full power in all steps of a cycle, generates exactly the energy of an uninterrupted run, and never leaves, even if it is to. The source and the sink may be different ones in different steps. In particular this is so for all reactors of a plan in which the source and the sink are built at the start, nobody lets them leave, and they could serve all the reactors ever built at the same time.", "quantifier": "all plans of building and leaving of sensible prototypes, all exchanges that respect requests and offers and leave no exclusive order or bid alone, all numbers of steps, all reactors of the plan and all steps in which they are built", "why_tests_cant": "Ranges over all fleets, all dates at which their facilities are built and leave, and all histories. A reactor that counted its cycles from the start of the simulation instead of its own, or one that was left without fuel in the step in which another is built or leaves, would be late in some of these only.", "anchors": ["src/reactor.cc: EnterNotify, Tick, Tock, Load, Discharge, GetMatlRequests, AcceptMatlTrades, GetMatlTrades, CheckDecommissionCondition", "src/source.cc: GetMatlBids, GetMatlTrades", "src/sink.cc: GetMatlRequests, AcceptMatlTrades", "src/deploy_inst.cc: Build"]}
{"id": "C148", "title": "A reactor with a last step runs on schedule to that step and then gives all its fuel away", "statement": "In a simulation in which facilities are built and leave in any step, a reactor with a last step and no storage for fresh fuel, built at the beginning of a cycle in any step before its last, runs on schedule from the step in which it is built to its last step, if in every step up to the last there are a source that can supply all the reactors then present and a sink that can take their spent fuel, in every later step such a sink, and the exchange leaves no exclusive order or bid alone. Until its last step it does not leave, even if it is to. After that it is given nothing and records no power, so that the energy it generates in its life is that of an uninterrupted run from its first step to its last, and what it has is at most a core less one assembly for every step since its last. As many steps after its last as its core has assemblies it has nothing and may leave. When it leaves it has nothing, and when it has nothing it has given as much as it was given. In particular this is so for all such reactors of a plan in which the source and the sink are built at the start, nobody lets them leave, and they could serve all the reactors ever built at the same time.", "quantifier": "all plans of building and leaving of sensible prototypes, all exchanges that respect requests and offers and leave no exclusive order or bid alone, all numbers of steps, all reactors of the plan without storage for fresh fuel, all their last steps and all steps in which they are built", "why_tests_cant": "Ranges over all fleets, all dates at which facilities are built, retire and leave, and all histories. A reactor that stopped a step early or late, left while it still had fuel, or kept an assembly for ever after its retirement would do so only for some relations between its cycle, its batch, its core and its last step.", "anchors": ["src/reactor.cc: EnterNotify, Tick, Tock, Load, Discharge, Transmute, GetMatlRequests, AcceptMatlTrades, GetMatlBids, GetMatlTrades, retired, CheckDecommissionCondition", "src/source.cc: GetMatlBids, GetMatlTrades", "src/sink.cc: GetMatlRequests, AcceptMatlTrades", "src/deploy_inst.cc: Build"]}
{"id": "C149", "title": "Spent fuel passes through interim storage on schedule", "statement": "In a simulation in which storage facilities collect the spent fuel of all reactors and pass it on from one to the next and at last to a sink, where each storage facility can process as much in a step as the reactors can discharge together and has room for its residence time and two steps of that, all trades that can be made are made, and the reactors are kept in fuel, either by a source or by a mine, any number of conversions and an enrichment facility: everything a reactor gives goes to the first storage facility and that is given nothing else; in every step each storage facility gives exactly what it was given one step more than its residence time before, nuclide by nuclide, and nothing in the steps before that; the sink is given in every step what the first storage facility was given as many steps before as all of them take together; at the end each storage facility has exactly what it was given in its residence time and the step after; and every reactor runs on schedule throughout.", "quantifier": "all sensible fleets with any number of reactors and any number of storage facilities of any residence times, all exchanges that respect requests and offers, are eager and leave no trade undone that both sides could make, all numbers of steps", "why_tests_cant": "Ranges over all lengths of the chain of storage facilities, all residence times, all schedules of the reactors and all histories. A storage facility that released a step early or late, split its batches wrongly, or ran out of room would hold up the reactors before it only for some relation between residence times, throughput and the cycles of the reactors.", "anchors": ["src/storage.cc: Tick, Tock, AddMat_, BeginProcessing_, ProcessMat_, ReadyMatl_, ready_time, current_capacity", "src/reactor.cc: Tick, Tock, GetMatlBids, GetMatlTrades", "src/sink.cc: GetMatlRequests, AcceptMatlTrades", "src/source.cc: GetMatlBids, GetMatlTrades", "src/conversion.cc: Tock, GetMatlBids, GetMatlTrades", "src/enrichment.cc: GetMatlBids, GetMatlTrades"]}
{"id": "C150", "title": "All spent fuel is reprocessed, each nuclide to where the efficiencies send it", "statement": "In a simulation in which storage facilities collect the spent fuel of all reactors and pass it on to a separations facility whose throughput and feed storage are no less than what the reactors can discharge in a step together, and whose streams and leftover are bought by sinks, where all trades that can be made are made, the reactors are kept in fuel and each delivery has of each stream nothing or more than the tolerance: in every step the separations facility gives under the commodity of each stream, of each nuclide, exactly the stream's efficiency for it times the mass of that nuclide that reactors sold as many steps before as the storage facilities take together and one more, and under the leftover commodity exactly the rest; what it gives under a commodity goes to the sink that buys it; it always has room for what comes and has at the end only what came in in the last step; and every reactor runs on schedule throughout.", "quantifier": "all sensible fleets with any number of reactors, storage facilities and streams, any efficiencies by nuclide or element that do not add up to more than one, all exchanges that respect requests and offers, are eager and leave no trade undone that both sides could make, all numbers of steps", "why_tests_cant": "Ranges over all sets of streams and efficiencies, all schedules of the reactors, all residence times and all histories. A facility that separated a step late, kept part of a stream back, took leftover for a stream or ran out of room for feed would hold up the whole chain back to the reactors only for some relation between cycles, residence times and throughput.", "anchors": ["src/separations.cc: Tick, SepMaterial, GetMatlRequests, GetMatlBids, GetMatlTrades, AcceptMatlTrades", "src/storage.cc: Tick, Tock, AddMat_, BeginProcessing_, ProcessMat_, ReadyMatl_", "src/reactor.cc: Tick, Tock, GetMatlBids, GetMatlTrades", "src/sink.cc: GetMatlRequests, AcceptMatlTrades", "src/source.cc: GetMatlBids, GetMatlTrades", "src/enrichment.cc: GetMatlBids, GetMatlTrades"]}
{"id": "C151", "title": "What the separations hold is on offer", "statement": "Whenever somebody asks for a product of a separations facility or for its leftover, the facility offers at least what is asked for or all it has of it.", "quantifier": "every sensible configuration, every history, every table of requests", "why_tests_cant": "Inventories of any number of items of any size, made by histories of any length. A facility that keeps a growing inventory and never offers it does so only for particular sizes of batches.", "anchors": ["src/separations.cc: GetMatlBids, Tick"]}
{"id": "C152", "title": "Nothing empty is offered", "statement": "Every bid that a facility makes on a request for something is of a positive quantity, and so is the capacity of its portfolio.", "quantifier": "every reactor, enrichment facility, fuel fabrication, separations facility, conversion facility and source with sensible input, every history, every table of requests for positive quantities", "why_tests_cant": "Inventories come about by histories of any length; a single empty item in one of them, which the exchange does not survive, appears only after particular trades.", "anchors": ["src/separations.cc: GetMatlBids", "src/reactor.cc: GetMatlBids", "src/enrichment.cc: GetMatlBids, Enrich_", "src/fuel_fab.cc: GetMatlBids", "src/conversion.cc: GetMatlBids", "src/source.cc: GetMatlBids"]}
{"id": "C153", "title": "The power that a growth region counts on is generated", "statement": "In a simulation with a growth region whose institutions are managers, where a source and a sink are there from the start that can serve all the reactors that are ever built: no reactor leaves; the supply of power that the region counts in a step is what the reactors that have been built record in that step, and the power of those that are being refuelled; and in every step but the first this is no less than what was demanded in the step before, if the building manager orders enough for what it is told is missing.", "quantifier": "all demand functions, prototypes, decisions of the building manager, scheduled builds, decommissionings of other facilities and exchanges that respect requests and offers and leave no assembly undelivered that was offered and asked for; simulations of any length", "why_tests_cant": "Ties the bookkeeping of the region to what every single reactor does in a fleet that depends on the demand; a test runs one demand function for some steps.", "anchors": ["src/growth_region.cc: Tick, OrderBuilds", "src/manager_inst.cc: BuildNotify, Register_", "src/reactor.cc: Tick, Tock, GetMatlRequests, GetMatlBids"]}
{"id": "C154", "title": "Every agent is in the table of positions once", "statement": "When agents of any archetype have entered the simulation, the table of positions has one row for each of them, with the latitude and longitude of its input.", "quantifier": "all inputs of all twelve archetypes and all sequences of agents that enter", "why_tests_cant": "The number of rows depends on the input (the number of streams of a mixer or of separations); the tests look for a row, not for how many there are.", "anchors": ["src/conversion.cc: EnterNotify", "src/deploy_inst.cc: EnterNotify", "src/enrichment.cc: EnterNotify", "src/fuel_fab.cc: EnterNotify", "src/growth_region.cc: EnterNotify", "src/manager_inst.cc: EnterNotify", "src/mixer.cc: EnterNotify", "src/reactor.cc: EnterNotify", "src/separations.cc: EnterNotify", "src/sink.cc: EnterNotify", "src/source.cc: EnterNotify", "src/storage.cc: EnterNotify"]}
{"id": "C155", "title": "A simulation depends on ages, not on dates", "statement": "A simulation in which everything is built and decommissioned some number of steps later, with the dates in its input that much later as well, does nothing until then and from then on what it did before: the same requests, offers and deals in every step, the same facilities that leave with the same contents, the same facilities that stay, and a failure where there was one.", "quantifier": "all schedules of builds and decommissionings of sources, sinks, storages, conversions, enrichments, fuel fabrications, separations, mixers and reactors with any input, all exchanges, all delays, simulations of any length", "why_tests_cant": "Scenarios start at time zero; a comparison with a constant date, or of a date with an age, in any one facility shows in what others do much later.", "anchors": ["src/reactor.cc: Tick, Tock, GetMatlRequests, GetMatlBids", "src/separations.cc: Tick, GetMatlRequests", "src/storage.cc: Tick, Tock, ReadyMatl_", "src/sink.cc: GetMatlRequests", "src/source.cc: GetMatlBids"]}
{"id": "C156", "title": "Optional input can be left out", "statement": "If the input of a prototype is in order, it is still in order when values that the schema declares optional are left out of it: the prototype can be built, and meets what the other properties assume of sensible input.", "quantifier": "all inputs of the nine facility archetypes and all choices of optional values that are left out", "why_tests_cant": "Every optional value can be left out alone or together with others; a test leaves out a few of them. A default that does not go with another value shows only in that combination.", "anchors": ["src/conversion.h", "src/enrichment.h: order_prefs", "src/fuel_fab.h", "src/mixer.h", "src/reactor.h: side_products, side_product_quantity", "src/separations.h: leftover_commod", "src/sink.h", "src/source.h", "src/storage.h"]}
{"id": "C157", "title": "The input files that come with the code run", "statement": "A simulation of any of the input files in input/ and tests/input/ goes through without an error for any number of steps: whatever the exchange decides, whenever more facilities of the prototypes of the file are built or facilities leave, with or without a growth region. Everything is handed over in the amount agreed, and no mass is made or lost.", "quantifier": "all input files of the repository, all numbers of steps, all fair exchanges, all schedules of builds and departures of the prototypes of the file, all demands and decisions of building managers, all sound values of what the libraries provide", "why_tests_cant": "The regression tests run the files for the duration that they have, with the solver at hand and the facilities that it leads to. Users take these files as a start, run them longer, and build more of their facilities.", "anchors": ["input/recycle.xml", "input/physor/1_Enrichment_2_Reactor.xml", "input/physor/2_Sources_3_Reactors.xml", "input/enrichment/1_src_enr_rxtr_sink.xml", "input/minimal-input/source_1_sink_1.xml", "input/deploy_inst.xml", "input/growth/source_sink_linear.xml", "tests/input/dynamic_capacitated.xml", "tests/input/growth.xml", "tests/test_regression.py"]}
{"id": "C158", "title": "Simulations in which enrichment facilities rank the bids for their feed", "statement": "With order_prefs, which is the default, an enrichment facility orders the bids for its feed by their uranium-235. A simulation with such facilities runs without an error for any number of steps, whatever the exchange makes of the preferences, if the sellers of feed can be told apart by their fraction of uranium-235, or if there is only one and it makes a single bid. All that is true of simulations without order_prefs is then true of it: only the deals may be others. If at any time two bids for feed have the same fraction of uranium-235, the behaviour is undefined.", "quantifier": "all fleets of facilities with sensible input, all schedules of builds and departures, all numbers of steps, all exchanges that keep to requests and offers for any preferences", "why_tests_cant": "The unit tests call the comparison, or have two sources of different recipes. Whether two bids are alike depends on all facilities that sell the feed and on what they have at the time, and sorting with a comparison that is not a strict order may go well on one machine or for few bids.", "anchors": ["src/enrichment.cc:AdjustMatlPrefs", "src/enrichment.cc:SortBids", "src/enrichment.h:order_prefs", "src/enrichment_tests.cc:BidPrefs"]}
{"id": "C159", "title": "The fuel a reactor asks for and hands over has the composition of a recipe that exists", "statement": "Whatever its input and whatever is delivered to it, as long as a reactor does not fail, every request it makes is one of a set with one request for each of its input commodities, for the composition of a recipe that exists and that the input names for this commodity; and everything it hands over was delivered to it in an earlier time step, in the same quantity, and has either the composition with which it was delivered or that of an output recipe that exists and that the input names. A reactor with room for fuel none of whose recipes for one of its commodities exists fails in its first time step.", "quantifier": "every reactor input, consistent or not, and every history of requests, sales and deliveries", "why_tests_cant": "The tests use consistent input and deliveries that match the requests; the property is about every input and every history.", "anchors": ["src/reactor.cc: GetMatlRequests, Transmute, Tick, GetMatlTrades, AcceptMatlTrades"]}
