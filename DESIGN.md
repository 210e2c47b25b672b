# Design of the formal model of cyclus/cycamore

The subject is the C++ source under `/repo/src` at the pinned commit. The model
and all proofs are Lean 4 and live in `lean/Verif`. The code is read as text;
it is neither built nor run.

## 1. Trusted base

* Lean 4.33.0's kernel, and the axioms `propext`, `Classical.choice` and
  `Quot.sound`. No axiom is added; there is no `sorry`, `admit`,
  `native_decide` or `bv_decide`. By `#print axioms`, every theorem of
  `MANIFEST.json` depends on exactly these three, except that
  `Reactor.C16_in_force_unique`, `Deploy.C61_counterexample`,
  `Deploy.C62_short` and `Producer.C117_loads` do not need
  `Classical.choice`, and `Sink.C60_gaps` and `Deploy.C62_counterexample`
  need `propext` only.
* The reading of the C++ text that each definition's comment cites.
* The assumed behaviour of the cyclus kernel and toolkit (not in `/repo`),
  collected in `Verif/Toolkit` and listed in section 3.

## 2. Modelling conventions

* **Numbers.** `double` quantities are exact rationals (`ℚ`); every finite
  double is a rational, but rounding is not modelled. Infinite capacities are
  `none : Option ℚ`. Divisions by zero are written as explicit guards. `int`
  is `Nat` where the code can only hold a non-negative value and `ℤ`
  elsewhere; overflow is not modelled.
* **Failure.** Operations return `Except Fault α`. `Fault.value`, `.key` and
  `.cast` are the C++ exceptions; `Fault.ub` is undefined behaviour (indexing
  out of range, `back()` of an empty vector). They are distinct outcomes, so
  "never fails" theorems exclude both.
* **Calls.** A member function that mutates its object is a function from the
  old state to the new one. One time step of an agent is the sequence the
  cyclus kernel runs: `Tick`, requests and bids, `GetMatlTrades` of the
  sellers, `AcceptMatlTrades` of the buyers, `Tock`.
* **Environment.** The market is an adversary: theorems quantify over every
  list of deliveries and sales. Where a property needs the exchange's contract
  (no more than requested, no more than offered) it is an explicit predicate
  on the step's inputs and on the requests and bids the model itself made.
* **Configurations.** "Every configuration" in a property means one that is
  consistent as `WellFormed` or `Valid` in the `Spec.lean` of the archetype
  says (sizes and throughputs not negative, lists of one length, recipes with
  mass); theorems without such a hypothesis hold for every input. A condition
  beyond that which a property does not mention makes its claim `partial`,
  and the theorem says what is missing. The log of wrong programs
  (`seeded/LOG.jsonl`) names theorems as they were called at the time; some
  have got the suffix `_partial` since.
* **Observation.** Each step returns a record of what an outside observer
  sees (power, events, requests, bids, goods handed over). Properties are
  stated about the list of these records and about the inputs.
* **Layout.** `Verif/Toolkit` has the substrate. Each archetype has a
  directory with `Model.lean` (the code), `Spec.lean` (vocabulary for the
  statements, independent of the code's helpers), `Lemmas*.lean` (proofs) and
  `Props.lean` (the property theorems and the examples that show their
  hypotheses can be met).

## 3. Assumed behaviour of cyclus (external to `/repo`)

* `toolkit::ResBuf<T>`: a queue with a capacity. `Push` refuses, with
  `ValueError`, what exceeds the free space by more than `eps_rsrc`; `Pop()`,
  `PopN(n)` take the oldest whole items and throw when there are too few;
  `Pop(q)` takes the oldest material up to exactly `q`, splitting the last item,
  merges it to one resource, and throws if `q` exceeds the content or is not
  positive (or is below a smallest poppable quantity, a parameter);
  `Pop(q, eps)` tolerates an excess of `eps`. A bulk buffer holds one merged
  item.
* `Material`: a vector of nuclide masses. `Absorb` adds vectors,
  `ExtractQty` splits proportionally, `ExtractComp` subtracts a given vector
  and throws if more is asked than is there. Decay is not modelled.
* The dynamic resource exchange: each traded amount is at most the request's
  and the bid's quantity, exclusive trades are all or nothing, mutually
  exclusive requests are filled at most once, and the sum over a bid
  portfolio of converted amounts is at most each capacity constraint.
* `toolkit::UraniumAssayMass` is the mass of U-235 over that of U-235 and U-238;
  `FeedQty` is `P (xp - xt) / (xf - xt)` and `SwuRequired` is
  `P V(xp) + T V(xt) - F V(xf)` for an arbitrary value function `V`. A quotient
  by zero is not a number of kilograms: removing that much throws.
* `Package::GetFillMass(q)` divides `q` into positive quantities of no more than
  `q`; each of them is filled into one package as it is, and a part of one into
  one package or none. This is proved of unpackaged material and of the two
  strategies of cyclus. `Resource::Package` extracts these quantities and leaves
  the rest. `TransportUnit::MaxShippablePackages(n)` is at most `n`.
* Random numbers of the context are in the range asked for; a real number is
  certain to be returned only for a range with an interior, a normal one only
  for a positive spread. `CY_LARGE_INT` is the greatest `int`; signed overflow
  is undefined. Materials are exchanged before products.
* `std::sort` with a comparison that is not a strict weak order is undefined
  behaviour.
* `GetMatlTrades` is called only of agents that have sales in the step.
* `Context::CreateAgent` throws `KeyError` for an unknown prototype.
  `AddPrototype` refuses an existing name in newer versions of cyclus and
  overwrites it in older ones: a parameter. `SchedBuild` throws `ValueError` for
  a time that is not in the future and does not check the name.
* In a step, `DoBuild` precedes `Tick`, and `DoDecom` follows `Tock`. `Build`
  precedes the parent's `BuildNotify` and the agent's `EnterNotify`. The agents of
  the input file and those of a restart are loaded with their children in place:
  they get `EnterNotify`, and their parents no `BuildNotify`. An agent that is
  decommissioned takes its children with it; a scheduled build holds a pointer to
  its parent.
* `CommodityProducer` is a `std::map`: `Add` is `insert` (an existing entry stays),
  `SetCapacity` and `SetCost` assign through `operator[]`, and `Copy` adds each
  commodity of the source and sets both.
* `CommodityProducerManager` is a set of producers and its capacity their sum;
  `SupplyDemandManager::Supply` is the sum over the registered managers.
  `Region::BuildNotify` does nothing. `PiecewiseFunctionFactory::AddFunction`
  throws if a piece does not start after the last one; `PiecewiseFunction::value`
  is that of the newest piece that has started, and zero before the first one.
* Snapshots are taken between steps. The generated `SnapshotInv` takes the
  resources out of the buffers that are state variables and puts copies back;
  the generated `InitInv` pushes what was saved. Resources keep their object
  identifiers. Members that are not state variables start as the constructor
  leaves them. A restart calls `InitFrom` and `EnterNotify`, not `Build`.
* In a step the exchange hands out exactly the materials it took from suppliers
  (used for networks, C114-C116, only).
* The kernel's call order above; `SchedBuild` without a time means the next
  step; an institution decommissions children whose exit time has come and
  whose `CheckDecommissionCondition` holds.

## 4. Plan per property

### Reactor (C01-C18)

`Reactor/Model.lean` models every member function of `reactor.cc` except string formatting of events and position recording. Step function over adversarial market inputs; invariants by induction over the input list.

* C01 Reactor conserves fuel assemblies: permutation of received ids against held and shipped ids, invariant of `run`.
* C02 Reactor inventories never exceed their limits: count invariant with the order size as slack.
* C03 Reactor orders exactly its vacancy: exact equation for the request list in any state.
* C04 A well-formed reactor never fails: progress theorem: under the invariant and the contract each call returns `ok`.
* C05 Power is produced only by a full core inside a cycle: case analysis of `Tock`, lifted to traces.
* C06 A started cycle runs for exactly cycle_time steps and is followed by at least refuel_time steps of outage: invariant relating the cycle counter to the step of the last recorded cycle start.
* C07 With prompt supply the cycle is periodic: simulation with an abstract periodic counter. Partial: a reactor deployed in mid-cycle starts none at its deployment; `C07_mid_cycle` (`Verif/Reactor/Props10.lean`) says when it does, for every `cycle_step`; `C07_counterexample` is such a reactor.
* C08 Fuel is transmuted at the end of its last cycle, and only then: ghost-free invariant on recipes of core, fresh and spent, by step cases.
* C09 Discharge is first-in first-out, one batch per cycle: exact list equation for discharge and count of successful discharges between starts.
* C10 A reactor with no room for spent fuel stalls: induction over the stalled steps.
* C11 Spent fuel is sold by commodity, oldest first: refinement of group/reverse/reassemble to 'remove first match' on the list.
* C12 Only spent fuel is offered, never more than is held: exact characterisation of bids.
* C13 Near retirement the reactor orders no fuel it cannot burn, and enough to keep running: arithmetic; expected to be false as stated because the code subtracts the capacity of fresh storage, not its content: witness plus partial. `Verif/Reactor/Props8.lean` proves that every cycle starts on time if fresh storage is small compared with the time left: the invariant (`Supplied` in `Lemmas13.lean`) is that fresh storage is full or has the batches of all cycles to come; a second witness misses only the last cycle.
* C14 Retirement shuts the reactor down in order: case analysis for retired steps, lifted to traces.
* C15 Decommissioning loses no fuel: expected false (fresh fuel is ignored): witness plus partial.
* C16 Scheduled preference and recipe changes take effect exactly on time: fold characterisation of the update loops.
* C17 Inconsistent reactor input is rejected at deployment: decision procedure equivalence; fuel vectors are unchecked, so witness plus partial.
* C159 The fuel a reactor asks for and hands over has the composition of a recipe that exists (`Verif/Reactor/Recipes.lean`, `Props9.lean`): an invariant for every input and every history, without `WellFormed` or `Honest`: the recipes in force are named by the input for their commodity, and what is held was delivered. That a reactor without the recipe fails is stated for one without an exit time; with one, it fails in the first step in which it orders.
* C18 Side products are recorded exactly with power: case analysis of `Tock`.

* C66 Reactor does not hold back fresh fuel: invariant "core full or no fresh fuel" along the run of an operating reactor. Added after an edited model that loads one assembly too few was not refuted.

### Storage (C19-C26)

`Storage/Model.lean`: the four buffers, entry times and the three processing functions. The buy and sell policies and the tracker are external; they appear as adversarial deliveries and sales.

* C19 Storage conserves material: linear invariant per nuclide.
* C20 Storage holds material for the residence time: invariant pairing items with entry times.
* C21 Storage throughput limit: bound on what a step adds to stocks.
* C22 Storage total inventory limit: total is unchanged by Tock.
* C23 Storage serves in arrival order: items of the later stages followed by earlier ones form a queue.
* C24 Discrete handling keeps batches whole: list membership invariant.
* C25 Storage makes material available on time: induction with exact queue description.
* C26 Storage processing never fails: progress theorem; throughput 0 is a witness of failure. Partial: with continuous handling a positive throughput below the least quantity a buffer gives away throws (witness).

* C67 Storage eventually releases what it receives: recursion for the released amount (continuous), count of released items (discrete), blocking by an oversized item for all continuations.
* C68 Inconsistent input is rejected and the policy follows the input: characterisation of `enter`.
* C69 Storage reports match its state: per-step facts.

### Separations (C27-C34)

`Separations/Model.lean`: `SepMaterial`, `Tick`, requests, bids, trades, snapshot and restore, efficiency check.

* C27 Separations conserve every nuclide: per-nuclide sum over one Tick. Nothing negative: invariant over histories, for any table (`Verif/Separations/Props3.lean`).
* C28 Separation efficiencies are honoured: exact equation.
* C29 Separations product and throughput limits: bounds on the scale factor.
* C30 Separations reject efficiencies above one: false (element and nuclide entries are checked apart): witness plus partial.
* C31 Separations request only what they can use: exact equation. Partial: false for accepted lists of preferences of another length (witness).
* C32 Separations deliver what was traded, out of the right stream: exact equation. Partial: trades below the least quantity a buffer gives away throw (`C32_tiny_throws`).
* C33 Separations inventories survive a restart: false (feed and leftover are restored twice): witness plus partial. The snapshot itself (`Verif/Separations/Snapshot.lean`) throws if an inventory exceeds its capacity by more than the tolerance, and otherwise changes nothing (`C33_snapshot`).
* C34 Separations are decommissioned only when empty: equivalence.
* C70 Separations keep running: invariant over honest histories; false for a limited leftover inventory (`Tick` throws): witness plus partial. With a limited leftover inventory it is proved as long as that has room for the feed of each step (`RoomyRun`, a condition on the states at the start of the steps), and for one that could take all that is received (`Verif/Separations/Props5.lean`). `C70_exact` says exactly when `Tick` throws.
* C71 Feed that was not processed returns unchanged: false (the separated nuclides are depleted in what returns): witness plus partial.
* C72 Separations offer exactly what they hold: characterisation of the bid loops.
* C73 Separations records tell what happened: exact equations.
* C151 What the separations hold is on offer (`Verif/Separations/Props4.lean`): bound from below on what is offered to a request; false for an inventory made of items no larger than `eps_rsrc()`, which are skipped one by one: witness (an inventory as large as one likes that is never offered, by induction over the history) plus partial.

### Enrichment (C35-C41)

`Enrichment/Model.lean` with the SWU value function as a parameter.

* C35 Enrichment balances mass: field arithmetic. Partial: the tails are only near their assay when a sale exhausts the feed to within the tolerance (`C35_counterexample`).
* C36 Enrichment SWU limit: running remainder invariant over the list of trades.
* C37 Enrichment never overdraws its feed: false for feed with other elements: witness plus partial, with the uranium of the feed for the capacity of the constraint; for pure uranium as stated.
* C38 Enrichment serves only feasible requests: exact filter condition.
* C39 Enrichment prefers richer feed: order lemma on sorted lists; comparator is not a strict weak order: witness.
* C40 Enrichment requests exactly its free feed capacity: exact equation.
* C41 Enrichment records the work and feed of the step: false in steps without sales: witness plus partial.
* C74 Enrichment conserves every nuclide: invariant over histories.
* C75 Enrichment sells its tails as they are: exact equations.
* C76 Enrichment feed limit: invariant over honest histories.

### FuelFab (C42-C48, C77-C83)

`FuelFab/Model.lean`: every member and helper function of `fuel_fab.cc` except
the constructor and `info`. Cross sections, neutron yields and atomic masses
(pyne data) are parameters; compositions are the masses of a material, up to
scale; the addresses under which requests are noted are a parameter that may
repeat from step to step. The exchange applies capacity constraints to the
offer cut to the traded amount. The statics of `CosiWeight` are modelled apart
(`cosiStatic`), with the theorem that a process of one spectrum cannot tell.

* C42 Fuel fabrication hits the target weight: field arithmetic; exactness false by the snapping of fractions: witness plus partial.
* C43 Atom to mass fraction conversion is exact: field arithmetic.
* C44 Fuel fabrication delivers what was traded: exact equation; false within tolerance of a short stream: witness plus partial.
* C45 Fuel fabrication throughput: sum bound.
* C46 Fuel fabrication trades that fit the constraints can be carried out: sum of converted amounts bounds each stream; false for negligible shares of an empty stream: witness plus partial.
* C47 Fuel fabrication routes deliveries to the stream that asked: map invariant.
* C48 Equivalence weight is normalised: list sums.
* C77 Requests: exact characterisation. C78 Bids: exact characterisation.
* C79 Fabricated fuel has the requested weight: from C42 and C46; false without fissile stock: witness plus partial.
* C80 Streams never exceed their size: invariant over histories. C81 Keeps running: progress; false of whole steps with sales that are not regular (C46): witness plus partial.
* C82 Filler alone can be sold: false (`HighFrac` returns 1 for equal weights): general refutation, witness and partial.
* C83 Preferences are checked: equivalence.

### Mixer (C49-C53, C84-C86)

`Mixer/Model.lean`: every member function of `mixer.cc`. The sell policy (a
cyclus toolkit class) appears as adversarial removals from the output. The
check of the number of ratios against the number of streams is left out: both
are lengths of lists filled by the same loop.

* C49 Mixer ratios are normalised: field arithmetic on list sums.
* C50 Mixer output has the configured proportions: exact equation, per stream and per nuclide.
* C51 Mixer limits: the amount mixed is the greatest element of a set defined in the statement.
* C52 Mixer inventories survive a restart: false (output is overwritten by the empty buffer): general refutation, witness and partial.
* C53 Mixer routes deliveries to the stream that asked: map invariant; exact requests.
* C84 Conservation: linear invariant over histories.
* C85 Keeps running: progress; false for a zero ratio beside others (`Pop(0)`): general refutation, witness and partial.
* C86 Limits of the stores: invariant over histories.

### Conversion (C54, C55, C87-C91)

`Conversion/Model.lean`: every member function of `conversion.cc`, including
the snapshot code generated for its one inventory with a directive. The bulk
buffers are `Toolkit/Bulk.lean`.

* C54 Conversion conserves material and respects throughput: linear invariant, exact move of each step.
* C55 Conversion offers no more than its product and asks for no more than its free feed space: exact equations.
* C87 Feed within its capacity: invariant over honest histories.
* C88 Keeps running: progress; false for a throughput of zero (`Pop(0)`): witness and partial.
* C89 Works off its feed: induction on the number of steps.
* C90 Inventories survive a restart: false (`output` is not in the snapshot): general refutation, witness and partial.
* C91 Requests limited by the throughput: false: witness and partial.

### Source (C56-C58, C92-C96)

`Source/Model.lean`: every member function of `source.cc` except construction,
description and position.

* C56 Source never ships more than its inventory: sum bound over histories, any trades; per step for honest trades.
* C57 Source ships what was asked for: composition for any trades, quantity exact or zero; false for parts of packages: witness and partial.
* C58 Source offers cover its capacity in packages: exact list of bids, with bounds.
* C92 Inventory falls by what is sent: exact equation; false for quantities up to `eps`: witness, partial and bound.
* C93 Snapshot and restart: equation.
* C94 Never fails in an honest market: progress.
* C95 Reported supply: equation.
* C96 Exhausted source stays silent: induction over the continuation. In any market, as a buffer does not give away less than its least quantity.

### Sink (C59, C60, C97-C103)

`Sink/Model.lean`: every member function of `sink.cc` except construction,
description, position and packaging. Random numbers are inputs of the model,
constrained only by the range that was asked for.

* C59 Sink never exceeds its capacity: request bound; inventory bound over honest histories.
* C60 Sink buys at its configured frequency: characterisation of the buying steps by an inductive definition of the due times. Partial: false for a least interval of zero (witness).
* C97 Keeps everything: equation over histories.
* C98 Never fails in an honest market: false in three ways: witnesses; partial.
* C99 Random sizes as configured: false for two of the size types: general refutation, witness, partial.
* C100 Resumes from a snapshot: false for random times: witness, partial.
* C101 Requests and demand: exact characterisation of the observation.
* C102 Inconsistent preferences rejected: equivalence.
* C103 A full sink stays silent: induction over the continuation. Partial: that the inventory does not grow is for deliveries that answer requests; that nothing is asked for is for any (`C103_silent`). A full sink takes unasked deliveries within the tolerance (`C103_counterexample`).

### Institutions and regions (C61-C65, C104-C109)

`Deploy/Model.lean`: `DeployInst::Build` and `EnterNotify`, with the part of the
context they use. `Region/Model.lean`: `ManagerInst`, the registration of
producers by `DeployInst`, and `GrowthRegion`, in a world of one region with
institutions and facilities that come and go as the kernel makes them. The
building manager's decision and the factory of functions are parameters.

* C61 Deployment schedule is followed exactly: exact list of the agents built in each step, whatever institutions enter; false when a prototype is named like a generated one (witness) and, where names must be unique, for two institutions with the same override (witness); partial.
* C62 Inconsistent deployment schedules are rejected: never accepted; but the lists are read before their lengths are compared: witness of undefined behaviour, partial.
* C63 Managed producers are the live ones: set invariant over histories; false for a `DeployInst` with facilities at the start or at a restart (witness), partial for it.
* C64 Growth region builds exactly when demand is unmet: equation for the orders of a step; the build manager is a parameter.
* C65 Growth region demand is the configured piecewise function: refinement of the list of pieces to a recursive curve; laws of the curve; accepted input.
* C104 Capacity ledger: equation between consecutive steps.
* C105 Unmet demand is met in the next step: from C64, C104 and C106. Partial: all institutions are ManagerInsts from the start, capacities not negative.
  For any region `C105_counted` says the same of the facilities that the region counts; the others
  are ordered again in each step (`C105_counterexample`).
* C106 The supply is what exists: exact formula; false for facilities of a `DeployInst` that exist at the start and for institutions that enter later (witnesses), partial.
* C107 Regions resume from a snapshot: simulation relation; false for `DeployInst` (witness), partial.
* C108 A well-formed region never fails: progress.
* C109 Orders go to the institutions that can build: exact set of the registered builders and of what each offers.

### Snapshots (C110-C113)

`Toolkit/Snapshot.lean` states what the generated `SnapshotInv` and `InitInv` do
with a buffer; `<Archetype>/Restart.lean` states which members a snapshot holds,
from the `#pragma cyclus var` directives, and composes reading them back with
`EnterNotify`. (The corresponding code of the other archetypes is in their
`Model.lean`: C93, C100, C107 and the mixer, separations and conversion ones.)

* C110 Reactor resumes: the state is restored exactly; needs the size invariant of the three buffers.
* C111 Storage resumes: the state is restored exactly, from any history. Partial: the internal state of the buy policy, and so the requests, are not modelled.
* C112 Enrichment resumes: bisimulation up to the totals of the last step with sales, which are not saved; false for the time series (witness), partial.
* C113 Fuel fabrication resumes: bisimulation up to the table of requests, which is not saved.

### Networks (C114-C116)

`Network/Model.lean`: any number of facilities of the nine facility archetypes,
each with the step in which it is deployed and its history in the model of its
archetype, connected by an exchange that in each step hands out exactly what it
takes. Nothing else is assumed of the exchange except that it moves material of
positive quantity without negative masses.

* C114 Nuclides conserved across a simulation: sum of the ledgers of the facilities (C19, C27, C47, C54, C74, C84, C97), sums over time and facilities exchanged.
* C115 Mass conserved across a simulation: from C114 for all nuclides, and C01 for reactors.
* C116 Never more than the sources had: C115 and the bound on what a source sends in its life.

### Announced capacities (C117, C118)

`Producer/Model.lean`: the tables that `InitFrom` of `Source`, `Reactor` and
`Storage` fills in and copies to facilities; regions and institutions read them.

* C117 Facilities announce what they can produce: table of a copy equals that of the prototype; exact capacities; bounds from C56, C05 and C18. False for storage and for side products of the same name (witnesses), partial.
* C118 A region makes no more than the supply it counts: from C117 and C106.

### The order of trades (C119, C120)

`Order/`: a step of each facility, with its sales or its deliveries permuted.

* C119 Sales in any order: what sales leave of a buffer depends only on their sum, by induction over the sales; swaps of neighbours for reactors. False for sources that ship in packages and for fuel fabrication with trades of filler alone (witnesses), partial there and for enrichment (where C37 is). For separations, whether the facility may be decommissioned is left open, as items of quantity zero may remain.
* C120 Deliveries in any order: what is accepted depends on the sum of the deliveries only (contract of the requests), so the permuted step succeeds; the states are then compared. False for a storage without residence time that handles discrete items (witness), partial there. The statement is about one step: what is made of the deliveries in later steps may depend on their order, as buffers are first in, first out (witness for separations).

### Age (C121)

`Age/`: every function commutes with a shift of all dates, by unfolding; whole histories by induction.

* C121 Behaviour depends on age, not on the date: for reactor, storage (where the test for a negative date makes no difference, as nothing entered before the start), separations, sink, `DeployInst` and `GrowthRegion`. The other archetypes do not read the time except to record it (checked by searching the source for `time()`). Partial: conditions on random times of sinks and on the times of DeployInsts, without which it is false (`C121_sink_counterexample`, `C121_deploy_counterexample`).

### Bids of all facilities (C152)

* C152 Nothing empty is offered (`Verif/Offers/Props.lean`): for every archetype that makes its own bids, from the
  characterisations of the bids (C12, C38, C55, C58, C72, C75, C78); false of the tails of an enrichment facility:
  witness plus partial. Mixer and storage sell by a policy of cyclus.

### Events, energy and fuel of a reactor (C122-C124)

`Reactor/Props6.lean`, `Reactor/Props7.lean`.

* C122 Events add up: a balance between the number of assemblies in the core and the rows written, kept by every function, for any market; the same for fresh fuel before retirement; spent fuel by C01.
* C123 Capacity factor: invariant that bounds the number of cycles begun by the steps elapsed, from any reachable state, and subadditivity of the ideal schedule; attained under the conditions of C07. Partial: a reactor deployed in mid-cycle records what an ideal one at the same place of the period does (`C123_mid_cycle`), so that the statement fails for it (`C123_counterexample`).
* C124 Energy takes fuel: invariants of the discharge flag (a start needs a discharge since the last one) and of the steps left of a cycle; with C122.

### Closed simulations (C125 to C150, C153, C155; with `order_prefs` C158 below)

`Sim/`: facilities of any prototypes with an exchange. `Market.lean` has the time step of the cyclus kernel (section 3) over facilities that are known by four functions (requests, offers, handing over, accepting); `Actors.lean` makes these of the models of the archetypes; `Round.lean` states a contract and proves that a simulation whose facilities keep it never fails; one file for each archetype proves that it keeps it. What a commodity may contain can be agreed upon (`Agreement`): the contract lets a facility rely on it for what it receives and holds it to it for what it delivers. `Example.lean` has an exchange, proved to respect requests and offers, and a fuel cycle of eight archetypes; `Props.lean` has one with fuel fabrication.

* C125 A simulation never stops with an error: by induction over the steps from the contracts. Partial: for sensible prototypes (`Sensible`); enrichment facilities receive uranium that is richer than their tails and not richer than the products they bid for (`Suits`), for otherwise they can offer what they cannot deliver (C37); the exchange makes no deals with fuel fabrications that these offered but cannot keep (C46), which is said in the theorem's model of their offers (`fuelKept`): a deal is taken when the inventories suffice for all deals at the offered qualities.
* C126 A closed simulation keeps its total mass: the contract includes the balance of one facility; the deals of a step are split by supplier and by receiver. Partial as C125.
* C127 What is agreed upon holds of every delivery: the same induction. Partial as C125.
* C128 Without reactors every nuclide is conserved: the balance in the contract is stated for any measure of material that depends only on the nuclides (`Measure`); C126 is the case of the mass, C128 that of one nuclide. Partial as C125, and for sources with a recipe (one without decides on delivery what its material is).
* C129 Facilities come and go: `Plan.lean` adds to the step what is built before it and what is decommissioned after it (section 3). When a facility is to be decommissioned is left open; it must agree (`CheckDecommissionCondition`). By induction over the steps, from the contract of one step. Partial as C125.
* C130 The balance of such a simulation: the same induction, with what leaves. Partial as C125 and C128.
* C131 With the schedules of `DeployInst`: C129 for the builds that C61 establishes. Partial as these.
* C132 `Verif/Sim/Lives.lean` says for each archetype what it means that a state is the end of a history
  of a single facility in an honest market (`Lived`); `Verif/Sim/Parts.lean` takes a time step apart into
  the parts of the facilities, and each part is a step of such a history. The history receives and
  gives in each of its steps what the simulation says the facility is given and gives in that step.
  Partial as C125.
* C133 `Verif/Sim/Restart.lean` stores and reads all facilities with the functions of their archetypes.
  A facility and the one read from its snapshot need not be equal (the counters of an enrichment
  facility, the table of requests of a fuel fabrication, the time of a sink). `Verif/Sim/Twins.lean` has
  a relation of states that no market can tell apart (`Twin`), and proves that steps of a simulation
  keep it; `Verif/Sim/RestartLemmas.lean` proves that a restart gives a twin, from C132. Partial as
  C125, and false with some archetypes (section 6).
* C134 `Verif/Sim/Growth.lean` drives a growth region with its institutions (`Verif/Region/`) and the
  facilities at work (C129) in one simulation: the capacities that the region sees are those that the
  prototypes announce (C117), what it orders is built as facilities that trade, and a facility leaves
  only if it agrees to it. One run is shown to be at once a history of the region, so that C105 and C106
  apply, and a simulation of C129; an invariant pairs the facilities of the two. Institutions neither
  enter nor leave here. `C134_runs_partial` is partial as C125; the other parts hold of every run.
* C135 `Verif/Sim/Limits.lean` lists the limits in the input of each archetype: what it may give and be
  given, and the sizes of its stores. `Verif/Sim/LimitsLemmas.lean` proves them of every history in an
  honest market, by induction over its steps, from the claims about single facilities and their lemmas;
  with C132 they hold of every facility of a simulation. Partial as C125.

* C136 `Verif/Sim/Supply.lean` says when a source and a sink are large enough, `Verif/Sim/Eager.lean` what an
  exchange must not leave alone: an exclusive order or bid for which one more deal would still respect
  all requests and offers (the greedy solver of cyclus passes an exclusive arc over only when it does not
  fit). If an order were left open, the deal with the source could be added, for all orders together
  are within its throughput; if spent fuel were left, a deal with the sink. So every order is filled and all
  spent fuel goes in the step of its discharge, and `Verif/Reactor/Steady.lean` follows such a reactor step by
  step. `Verif/Sim/Filling.lean` has an exchange that is proved to respect requests and offers and to leave
  nothing alone. Partial as C125.
* C137 The commodities of requests and offers are those of the input, for each archetype
  (`Verif/Sim/SupplyLemmas.lean`); the deals follow. A separate group: the balances of C132 added up, with the
  deals counted by supplier and by receiver. Partial as C125.
* C138 `Verif/Sim/Flow.lean` says what a source can give and a sink takes, from the input and from what they gave and
  were given before; `Verif/Sim/Thorough.lean` what an exchange must not leave alone: a source and a sink of
  which both could trade more (the greedy solver of cyclus goes on until either side of every arc is
  used up). If neither a source nor a sink for its commodity had all it could have, a deal between them could be added.
  The amounts of a step follow by adding up. `pouring` is an exchange that is proved to be of this kind.
  Partial as C125.
* C139 `Verif/Sim/Apart.lean` says when two groups are apart and what two simulations side by side are. For
  each archetype, in any state and for any input (`Verif/Sim/Commods.lean`): what it asks for is in the commodities
  it buys, what it offers in those it sells, and what it offers and hands over depends only on the requests for what
  it sells. Only separations needs an invariant, that its buffers are those of its streams. So the requests and offers
  of both groups are those of each put together, no deal crosses, and a step of both is a step of each
  (`Verif/Sim/ApartLemmas.lean`); by induction over the steps for the simulation. The first three theorems of C137
  follow for any input in the same way. `C139_fair_partial` is partial as C125.
* C140 `Verif/Sim/Supply.lean` says when an enrichment facility is large enough: bounds `φ` and `σ` on feed and
  separative work per kilogram of any product that can be asked for. `Verif/Sim/Eager.lean` says what the
  exchange must not leave alone, now with the further constraints of the suppliers
  (`Exchange.Keen`), and `Verif/Sim/Sweeping.lean` has an exchange that does so. The proof is that of C136 with
  the source replaced: an invariant over the steps keeps the feed above what the steps to come
  need (`feed_stays`), and an order that could not be filled would leave room in all three
  constraints of the bid portfolio (`enrichment_fills`). Partial as C125.
* C141 The feed need not be there at the beginning: `Replenishes` in `Verif/Sim/Supply.lean` says when a mine keeps
  up with the enrichment facility. The exchange must also leave nothing alone where no order is exclusive
  (`Exchange.Thorough` of C138); `Verif/Sim/Sating.lean` has an exchange that does both. In each step either the mine
  gives its throughput, all of it to the enrichment facility, or the inventory of feed is filled
  (`feed_refill`), so the feed never falls below what a step needs (`feed_kept`); the rest is as
  for C140. Partial as C125.
* C142 The contracts that the facilities keep (`Contract` and `Pledge` in `Verif/Sim/Round.lean`) include that what a
  facility holds has no negative parts; so this holds of all facilities at all times (`Verif/Sim/Props13.lean`).
* C143 C124 bounds the energy of a reactor by the number of assemblies it has received; in a simulation these have the
  mass that the log says. The balance of a group of facilities (what they hold and give is what they started with and
  were given), for the reactors and for the facilities downstream of them, bounds what the reactors have received. `Open`
  says that nothing flows back. An example of a reactor that buys what it sells shows that this is needed.
* C144 `Verif/Sim/Books.lean` runs the simulation of C129 with an account for every facility, which goes with it
  when its number changes. By induction over the steps (`chronicle_ok` in `Verif/Sim/Props14.lean`) accounts are
  right (`Audited`): a step adds to the account what the lemma for a step of C132 says. Balance and limits follow from
  the facility's own history as in C132, C135 and C142. Clocks (`clock`) agree with the simulation
  (`Verif/Sim/Props21.lean`). Partial as C125.
* C145 As C143, with the back end told by its commodities (`OpenCycle`), since positions change. What the back end has
  been given and has not passed on, less what reactors gave, never falls in a step (`surplus_grows`). Partial as
  C125.
* C146 As C141, with conversions between the mine and enrichment. `Flows` in `Verif/Sim/Chain.lean` follows the chain,
  and `Feeds` says what the facilities must be able to do. The proof goes along the chain: who gets its feed from
  somebody who offers `r` or more from some step on offers `r` or more from the next step on. Partial as C125.
* C147 C136 for the simulations of C144. The lemma for one step of a reactor that is served (`inTime_step` in
  `Verif/Sim/Props17.lean`) is that of C136, for facilities of different ages; `Served` in `Verif/Sim/Served.lean`
  says what there must be in a step. The accounts are those of what was built (`accounts_of`), and the first
  facilities keep their numbers (`firsts_stay`), which gives the theorem for a plan. Partial as C125.
* C148 The same for a reactor that retires. Up to its last step it is a reactor of C147: without storage for
  fresh fuel the orders before retirement are not cut (`orders_vacancy` in `Verif/Reactor/Steady.lean`). After
  that it orders nothing, and in each step at least one assembly goes from the core to the storage
  (`retired_progress`), from which the sink empties it (`emptied_step` in `Verif/Sim/Props18.lean`).
  `C148_lifetime_partial` has the lifetime in place of the last step. Partial as C125.
* C149 C136 and C146 with storage facilities between the reactors and the sink. `Disposes` in
  `Verif/Sim/BackEnd.lean` says what they must be able to do, `Disposed` what they do. The proof is an induction on
  the steps: `Passed` in `Verif/Sim/Props19.lean` says that what each storage facility has is what it was given in
  its residence time and one step more, so that it has room for another step (`storage_wants`) and the reactors sell
  all they have (`storage_takes`); one link of the chain is `link_step`. The theorems on schedules now ask only that
  somebody takes the spent fuel in each step (`Taken` in `Verif/Sim/OnSchedule.lean`). Partial as C125.
* C150 C149 with a separations facility in place of the last sink and sinks for its streams and leftover. What the
  storage facilities need of whoever is at the end is `Ends` in `Verif/Sim/Props19.lean`; a sink and a separations
  facility both have it (`Disposes.ends`, `Reprocesses.ends`). The vocabulary is in `Verif/Sim/Reprocess.lean`. The
  proof is an induction on the steps: `Worked` in `Verif/Sim/Props20.lean` says that after each step all stocks of
  the facility are empty and the feed is what came in in that step. `Worthwhile` is a hypothesis on what comes in:
  `Separations::GetMatlBids` makes no bids for stocks up to the tolerance, so less than that stays where it is until
  there is more, and the step in which it is given is another one. Partial as C125.
* C153 C134 and C147 together (`Verif/Sim/Settled.lean`, `Verif/Sim/Props22.lean`): the simulation with a growth
  region is one in which what is due is built (C134), so every reactor that the region orders runs on schedule from
  the step in which it is built (C147), with power recorded in every step of a cycle. What was built up to a step has
  left or is at work in it, and no reactor leaves; so the supply that the region counts is a sum over the accounts of
  the reactors. That demand is met is then C134. With a refuelling time of 0 nothing is being refuelled, and the
  recorded power alone meets the demand (`Verif/Sim/Props28.lean`).
* C155 C121 for whole simulations (`Verif/Sim/Later.lean`, `Verif/Sim/Props23.lean`): each thing that a facility does
  in a step commutes with moving its state by `d` steps, archetype by archetype, from the lemmas of `Verif/Age`; then
  the step of the simulation does, and by induction the simulation. The prototypes are arbitrary, so a simulation
  that fails fails `d` steps later in the same way. The one invariant is that the stores of a storage facility have
  no limits of their own. The exchange is a parameter and is moved as well.

### Positions (C154)

* C154 `Verif/Position/Model.lean` follows the calls of `InitializePosition` in the twelve `EnterNotify`; the rest of
  these functions is in the models of the archetypes, and is called to see whether they throw. By cases. False of the
  code for two archetypes (section 6).

### Optional input (C156)

* C156 `Verif/Input/Model.lean` has the values with a default in the nine headers of facilities as options, and reads
  an input as a configuration of the archetype. `LeavesOut` (`Verif/Input/Spec.lean`) relates an input to one that
  gives less; the theorem is by cases over the archetypes and says that what `Sensible` demands, the hypothesis of the
  theorems on simulations, survives. False of the code for two values (section 6); `Careful` excludes them, and the
  lists that have to be given together.

### The input files that come with the code (C157)

* C157 `Verif/Shipped/Model.lean` has the prototypes of the files in `/repo/input` and `/repo/tests/input`, with their
  optional values left out as in the files (C156), and what they build; files that differ in the solver only are there
  once. What the libraries provide (tolerances, atomic masses, cross sections, the value function) is a parameter that
  has to be sound (`World.Sound`). For each file there is an agreement on what feed and product are made of that all its
  prototypes suit, so that C125, C129, C130, and C134 apply, whatever is built of the prototypes. `order_prefs` is given
  as off, which makes no difference with one seller of feed (`C157_one_seller`); `C157_as_written_partial`
  (`Verif/Shipped/Props2.lean`) is for the files with it on, as they are, by C158. Beside the theorems, some files are
  run by evaluation, and behave as `tests/test_regression.py` expects.

### Simulations with `order_prefs` (C158)

* C158 `Verif/Sim/Ranking.lean` adds the step that `Verif/Sim/Market.lean` leaves out: after the bids, every enrichment
  facility with `order_prefs` sorts the bids on its request (`Enrichment.adjustPrefs`), and the exchange gets to know the
  ranks. The bids of a facility on a request (`bidsOn`) are those of its own `GetMatlBids` with this as the only
  request. `rankedLive` is `live` with this step. By induction over the steps, with the facilities compared to those
  without `order_prefs` (`Running.plain`), which do all but the sorting alike. The specification (`Tied`, `TiedBefore`)
  speaks of pairs of bids and their fractions of uranium-235, not of sorting. Two conditions on the input exclude ties:
  no more than one seller of feed, or mines of different ore. False of the code otherwise (section 6).
  `C158_bids_are_offers` ties the bids to the offers of the market. `C158_bids_alone`: the bids on a request are the
  same whatever else is requested, where `bidsAt` picks them from the portfolios for all requests.
  `C158_counterexample_tails`: one seller is not enough if it bids for its items one by one, as an enrichment
  facility does for its tails.

## 5. What is modelled and what is not

By file of `/repo/src`; the test files are not part of the program.

| File | Modelled | Not modelled |
| --- | --- | --- |
| `conversion.cc`, `.h` | all member functions | `str` |
| `deploy_inst.cc`, `.h` | all member functions | `WriteProducerInformation` (logging only) |
| `enrichment.cc`, `.h` | all member functions | `str` |
| `fuel_fab.cc`, `.h` | all member functions, `CosiWeight`, `AtomToMassFrac`, `HighFrac`, `LowFrac`, `ValidWeights`; the tables of cross sections are a parameter | `Contains` (not called) |
| `growth_region.cc`, `.h` | all member functions; the build manager and the function factory of cyclus are parameters | logging |
| `manager_inst.cc`, `.h` | all member functions | `WriteProducerInformation` (logging only) |
| `mixer.cc`, `.h` | all member functions; the sell policy of cyclus by its effect | |
| `reactor.cc`, `.h` | all member functions that are called | `fuel_incommod`, `fuel_inrecipe`, `fuel_pref` (not called) |
| `separations.cc`, `.h` | all member functions; the recorded events are part of the observation | the database row of `Record` |
| `sink.cc`, `.h` | all member functions; random numbers are a parameter | `str` |
| `source.cc`, `.h` | all member functions; packages and transport units are parameters | `str` |
| `storage.cc`, `.h` | all member functions; the buy and sell policies of cyclus by their effect | `str`, `Tick` (logging only) |
| `toolkit/position.cycpp.h` of cyclus, included by all | the calls of `InitializePosition` (`Verif/Position/`) | its body, which is assumed to record the position |
| `/repo/input`, `/repo/tests/input` | prototypes, initial facilities and those of `DeployInst` (`Verif/Shipped/`) | dates, solvers, names of regions; growth regions are parameters |
| code generated by `cycpp` | `SnapshotInv`, `InitInv`, the choice of state variables and the defaults of the input of facilities (`Verif/Input/`) | the rest of `InitFrom`, schemas, annotations |

Rounding of `double`, overflow of `int` (except where a theorem names it), decay
and the internals of cyclus (solver, policies, recorder) are not modelled.

### Tests of the model

The unit tests of the project (`/repo/src/*_tests.cc`) are replayed on the model in `Verif/*/Tests.lean`: the same input,
the same sources and sinks, and what the test expects of the result, evaluated by the kernel. All expectations hold of
the model. These are tests, not proofs, and no claim rests on them; they are evidence that the model says what the code
does. Not replayed are

* tests of what is not modelled: clones, printing, packaging, the random and cumulative buy policies of cyclus inside
  `Storage`, the comparison of two spectra in `CosiWeight` (which needs the tables of cross sections);
* two regression values of `FuelFab` (`CorrectMixing`) that depend on all digits of those tables; the other tests of
  `FuelFab` use rounded cross sections;
* tests of positions, which are theorems (C154), and tests that only call functions of cyclus.

## 6. Defects found

Where a property is false of the code, a theorem gives a witness, and the claim
is `partial`. The witnesses, by archetype:

* Reactor: C13 (a reactor near its end may order too little to start its first
  or its last cycle), C15 (the condition for decommissioning ignores fresh fuel), C17 (fuel vectors of
  different lengths are accepted), C156 (`side_product_quantity` may be left out, and is then read out of bounds).
* Storage: C26 (with continuous handling a throughput of zero, or below the least
  quantity a buffer gives away, throws).
* Separations: C31 (preferences of another number than the feed commodities are
  accepted and read out of bounds), C32 (trades below the least quantity a buffer gives away throw), C30 (efficiencies of an element and of its nuclide are checked
  apart; negative ones are accepted and stop a later step), C33 (feed and
  leftover come back as streams, and the facility never retires; taking a snapshot throws if a buffer is filled
  beyond its tolerance), C70 (a limited
  leftover buffer throws; so does the push back of stock shown in a bid when a
  buffer is filled into its tolerance), C71, C151 (items no larger than `eps_rsrc()`
  are skipped one by one when bids are made, yet count towards what is asked for: a
  stream of which each batch of feed has little accumulates and is never offered),
  C154 (the position is recorded once for every stream).
* Enrichment: C37 (bids it cannot honour, with other nuclides in the feed or for
  products poorer than the feed), C38 (assay by mass compared with an assay by
  atoms), C39 (comparison that is no strict order; C156: `order_prefs` is on by default), C41 and C112 (totals of the
  last step with sales are recorded again; after a restart they are
  indeterminate), C152 (a sale at the assay of the feed leaves tails of no quantity, which are offered; a
  comment in `separations.cc` says that the exchange crashes on such a bid).
* Fuel fabrication: C42 and C44 (within tolerances only), C46, C79, C81 and C82 (a
  filler-only target, an empty stream, equal weights).
* Mixer: C52 (a restart loses the output), C85 (a ratio of zero throws),
  C154 (as for separations).
* Conversion: C88 (a throughput of zero throws), C90 (a restart loses the
  product), C91 (requests ignore the throughput).
* Source: C57 and C92 (quantities below the smallest package).
* Sink: C60 (after an interval of zero it never buys again), C98 (both kinds of resource, a full sink with random sizes, overflow with
  the default frequency), C99 (integer sizes are ignored), C100 (the next
  purchase is drawn again at a restart).
* Institutions and regions: C61 (names of prototypes with another lifetime), C62
  (lists are read before their lengths are compared), C63, C106 and C107
  (facilities of a `DeployInst` that exist at the start or at a restart, and
  institutions that enter later, are not counted).
* Order of trades: C119 (a source that runs out of transport units leaves the
  last trades unanswered, so its stock depends on their order; a trade of filler
  alone throws unless trades before it have used up the fissile stock), C120 (in
  a storage without residence time, a large discrete item delivered first holds
  back a smaller one).
* Dates: C121 (in the time of the next purchase of a sink and in the times of a `DeployInst`, -1 is both a
  date and a sign for something else; with the default `random_frequency_max` a sink deployed after time 0
  can overflow).
* Announced capacities: C117 (of side products with the same name only the first
  is announced; storage sells more in a step than it announces; missing side
  product quantities and output commodities are read at loading, before any
  check).
* Closed simulations: C125 (`Verif/Sim/Props16.lean`: a conversion of throughput zero, a conversion that
  receives crumbs, a mixer with a ratio of zero beside another, a separations facility with a limited leftover
  and an enrichment facility asked for uranium poorer than its feed each stop a simulation with an error).
  What else `Sensible` excludes is false of the code too, by the witnesses for single facilities: random
  purchases (C98: a full sink draws from an empty range, times overflow), packaging (C57, C92: trades
  that are not answered), ordered preferences (C39, C158: two mines of the same ore and an enrichment facility with
  the default `order_prefs` have undefined behaviour in the first step, whatever the exchange does).
* Restarts of simulations: C133 (with a conversion, a mixer or a separations facility the total mass
  changes, see C90, C52 and C33).
