import Verif.Reactor.Props1
import Verif.Reactor.Props2
import Verif.Reactor.Props3
import Verif.Reactor.Props4
import Verif.Reactor.Props5
import Verif.Reactor.Props6
import Verif.Reactor.Props7
import Verif.Reactor.Props8
import Verif.Reactor.Props9
import Verif.Reactor.Props10
import Verif.Storage.Props
import Verif.Storage.Props2
import Verif.Separations.Props1
import Verif.Separations.Props2
import Verif.Separations.Props3
import Verif.Separations.Props4
import Verif.Separations.Props5
import Verif.Separations.Props6
import Verif.Separations.Snapshot
import Verif.Separations.Props7
import Verif.Enrichment.Props1
import Verif.Enrichment.Props2
import Verif.Enrichment.Props3
import Verif.Enrichment.Props4
import Verif.FuelFab.Props1
import Verif.FuelFab.Props2
import Verif.FuelFab.Props3
import Verif.FuelFab.Props4
import Verif.Mixer.Props1
import Verif.Mixer.Props2
import Verif.Conversion.Props
import Verif.Source.Props
import Verif.Sink.Props
import Verif.Deploy.Props
import Verif.Region.Props
import Verif.Region.Props2
import Verif.Region.Props3
import Verif.Region.Props4
import Verif.Network.Props
import Verif.Producer.Props
import Verif.Order.Props
import Verif.Order.Props2
import Verif.Order.Props3
import Verif.Order.Props4
import Verif.Order.Props5
import Verif.Order.Props6
import Verif.Order.Props7
import Verif.Order.Props8
import Verif.Order.Props9
import Verif.Order.Props10
import Verif.Age.PropsReactor
import Verif.Age.PropsStorage
import Verif.Age.PropsSeparations
import Verif.Age.PropsSink
import Verif.Age.PropsDeploy
import Verif.Age.PropsRegion
import Verif.Sim.Props
import Verif.Sim.Props2
import Verif.Sim.Props3
import Verif.Sim.Props4
import Verif.Sim.Props5
import Verif.Sim.Props6
import Verif.Sim.Props7
import Verif.Sim.Props8
import Verif.Sim.Props9
import Verif.Sim.Props10
import Verif.Sim.Sweeping
import Verif.Sim.Enriching
import Verif.Sim.Props11
import Verif.Sim.Sating
import Verif.Sim.Props12
import Verif.Sim.Props13
import Verif.Sim.Props14
import Verif.Sim.Chain
import Verif.Sim.Props15
import Verif.Sim.Props16
import Verif.Sim.Served
import Verif.Sim.Props17
import Verif.Sim.Props18
import Verif.Sim.BackEnd
import Verif.Sim.Props19
import Verif.Sim.Reprocess
import Verif.Sim.ReprocessLemmas
import Verif.Sim.Props20
import Verif.Sim.Props21
import Verif.Sim.Settled
import Verif.Sim.Props22
import Verif.Sim.Later
import Verif.Sim.Props23
import Verif.Sim.Ranking
import Verif.Sim.RankingLemmas
import Verif.Sim.Props24
import Verif.Sim.Props25
import Verif.Sim.Props26
import Verif.Sim.Props27
import Verif.Sim.Props28
import Verif.Input.Model
import Verif.Input.Spec
import Verif.Input.Props
import Verif.Offers.Props
import Verif.Position.Model
import Verif.Position.Props
import Verif.Shipped.Model
import Verif.Shipped.Spec
import Verif.Shipped.Props
import Verif.Shipped.Props2
import Verif.Reactor.Tests
import Verif.Conversion.Tests
import Verif.Source.Tests
import Verif.Sink.Tests
import Verif.Mixer.Tests
import Verif.FuelFab.Tests
import Verif.Enrichment.Tests
import Verif.Storage.Tests
import Verif.Deploy.Tests
import Verif.Separations.Tests
