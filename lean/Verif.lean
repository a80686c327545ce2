import Verif.Time.Props
import Verif.Events.Props
import Verif.Parallel.Props
import Verif.Serial.Props
import Verif.Serial.CommProps
import Verif.Mpi.Props
import Verif.Mpi.WaitProps
import Verif.Mpi.CommProps
import Verif.Mpi.TypesProps
import Verif.Coll.TreeProps
import Verif.Coll.AllgatherProps
import Verif.Coll.BarrierProps
import Verif.Coll.AllreduceProps
import Verif.Coll.BcastProps
import Verif.Coll.ScanProps
import Verif.Coll.ReduceProps
import Verif.Coll.GatherProps
import Verif.Coll.ScatterProps
import Verif.Coll.AlltoallProps
import Verif.Coll.AllgathervProps
import Verif.Coll.EngineProps
import Verif.Topo.Net
import Verif.Topo.Coords
import Verif.Topo.Torus
import Verif.Topo.TorusProps
import Verif.Topo.TorusValiant
import Verif.Topo.Hypercube
import Verif.Topo.HypercubeProps
import Verif.Topo.HypercubePar
import Verif.Topo.FatTree
import Verif.Topo.FatTreeProps
import Verif.Topo.Dragonfly
import Verif.Topo.DragonflyLemmas
import Verif.Topo.DragonflyProps
import Verif.Topo.Full
import Verif.Pisces.Slot
import Verif.Pisces.SlotProps
import Verif.Pisces.Flow
import Verif.Pisces.FlowProps
import Verif.Pisces.Switches
import Verif.Nic.RecvCq
import Verif.Nic.RecvCqProps
import Verif.Nic.Inject
import Verif.Nic.InjectProps
import Verif.Nic.QueueProps
import Verif.Nic.RingProps
import Verif.Nic.Negligible
import Verif.Snappr.Port
import Verif.Snappr.PortProps
import Verif.Snappr.WrrProps
import Verif.Snappr.Flow
import Verif.Pisces.Arbitrator
import Verif.Pisces.ArbitratorProps
import Verif.Os.Mutex
import Verif.Os.MutexProps
import Verif.Os.Cores
import Verif.Os.CoresProps
import Verif.Util.Shuffle
import Verif.Util.ShuffleProps
import Verif.Launch.Mapper
import Verif.Launch.MapperProps
import Verif.Launch.Outcast
import Verif.Launch.OutcastProps
import Verif.Launch.Alloc
import Verif.Launch.AllocProps
import Verif.Launch.Jobs
import Verif.Launch.JobsProps
import Verif.Util.CartGrid
import Verif.Util.CartGridProps
import Verif.Parallel.Partition
import Verif.Parallel.PartitionProps
import Verif.Stats.Ftq
import Verif.Stats.FtqProps
import Verif.Os.Progress
import Verif.Os.ProgressProps
import Verif.Sumi.DenseRank
import Verif.Sumi.DenseRankProps
import Verif.Sumi.Comm
import Verif.Sumi.CommProps
import Verif.Os.Stacks
import Verif.Os.StacksProps
import Verif.Snappr.CapProps
import Verif.Os.Globals
import Verif.Os.GlobalsProps
import Verif.Mpi.Probe
import Verif.Mpi.ProbeProps
import Verif.Mpi.Xfer
import Verif.Mpi.XferProps
import Verif.Topo.DragonflyValiant
import Verif.Topo.DragonflyValiantProps
import Verif.Topo.DragonflyScatter
import Verif.Topo.DragonflyScatterProps
import Verif.Coll.DirectAlltoall
import Verif.Coll.DagCtl
import Verif.Coll.DirectAlltoallProps
import Verif.Topo.DragonflyPlus
import Verif.Topo.DragonflyPlusProps
import Verif.Topo.Cascade
import Verif.Topo.CascadeProps
import Verif.Sculpin.Port
import Verif.Sculpin.PortProps
import Verif.Sculpin.Nic
import Verif.Sculpin.NicProps
import Verif.Sculpin.PathProps
import Verif.Topo.File
import Verif.Topo.FileProps
import Verif.Params.Model
import Verif.Params.Spec
import Verif.Params.Lemmas
import Verif.Params.Props
import Verif.Params.Text
import Verif.Params.SendProps
import Verif.Params.FileProps
import Verif.Parallel.Links
import Verif.Parallel.LinksSpec
import Verif.Parallel.LinksLemmas
import Verif.Parallel.LinksProps
import Verif.Os.Threads
import Verif.Os.ThreadsSpec
import Verif.Os.ThreadsLemmas
import Verif.Os.ThreadsProps
import Verif.Params.Units0
import Verif.Params.UnitTables
import Verif.Params.Units
import Verif.Params.UnitsSpec
import Verif.Params.UnitsLemmas
import Verif.Params.UnitsProps
import Verif.Nic.LogP
import Verif.Nic.LogPLemmas
import Verif.Nic.LogPProps
import Verif.Util.Rng
import Verif.Util.RngProps
import Verif.Os.Libs
import Verif.Os.LibsProps
import Verif.Util.Pool
import Verif.Util.PoolProps
import Verif.Stats.Csv
import Verif.Stats.CsvProps
import Verif.Mem.Snappr
import Verif.Mem.SnapprProps
import Verif.Mem.Pisces
import Verif.Mem.PiscesProps
import Verif.Mem.LogP
import Verif.Mem.LogPProps
import Verif.Mpi.Request
import Verif.Mpi.RequestLemmas
import Verif.Mpi.RequestInv
import Verif.Mpi.RequestProps
import Verif.Mpi.TestProgress
import Verif.Mpi.TestProgressProps
import Verif.Mpi.CollCall
import Verif.Mpi.CollCallProps
import Verif.Mpi.Handles
import Verif.Mpi.HandlesProps
import Verif.Coll.Smp
import Verif.Coll.SmpProps
import Verif.Mpi.Ops
import Verif.Mpi.OpsLemmas
import Verif.Mpi.OpsProps
import Verif.Mpi.DtHandles
import Verif.Mpi.DtHandlesProps
import Verif.Sumi.Transport
import Verif.Sumi.TransportLemmas
import Verif.Sumi.TransportProps
import Verif.Otf2.Replay
import Verif.Otf2.Spec
import Verif.Otf2.ReplayLemmas
import Verif.Otf2.ReplayRun
import Verif.Otf2.ReplayProps
import Verif.Dumpi.Replay
import Verif.Dumpi.Spec
import Verif.Dumpi.ReplayLemmas
import Verif.Dumpi.ReplayProps
import Verif.Dumpi.Early
import Verif.Otf2.Writer
import Verif.Otf2.WriterProps
import Verif.Os.Pthread
import Verif.Os.PthreadSpec
import Verif.Os.PthreadLemmas
import Verif.Os.PthreadInv
import Verif.Os.PthreadProps
import Verif.Os.CpuSet
import Verif.Apps.Prog
import Verif.Apps.ProgLemmas
import Verif.Apps.Halo
import Verif.Apps.HaloProps
import Verif.Apps.Sweep
import Verif.Apps.SweepProps
import Verif.Apps.Fft
import Verif.Apps.FftProps
import Verif.Os.AppEnv
import Verif.Os.AppEnvProps
import Verif.Os.AppStreams
import Verif.Os.AppStreamsProps
import Verif.Launch.Request
import Verif.Launch.RequestProps
import Verif.Os.Compute
import Verif.Os.ComputeProps
import Verif.Os.Omp
import Verif.Os.OmpProps
import Verif.Launch.Files
import Verif.Launch.FilesProps
import Verif.Topo.TorusPositive
import Verif.Topo.TorusPositiveProps
import Verif.Util.DebugFlags
import Verif.Util.DebugFlagsProps
import Verif.Launch.Options
import Verif.Launch.OptionsProps
import Verif.Mpi.HostTime
import Verif.Mpi.HostTimeProps
import Verif.Mpi.Lifecycle
import Verif.Mpi.LifecycleProps
import Verif.Util.Mersenne
import Verif.Util.MersenneProps
import Verif.Clang.Compute
import Verif.Clang.ComputeProps
import Verif.Mpi.Modes
import Verif.Mpi.ModesProps
import Verif.Clang.Memory
import Verif.Clang.MemoryProps
import Verif.Coll.Registry
import Verif.Coll.RegistryProps
import Verif.Os.Libc
import Verif.Os.LibcProps
import Verif.Os.Exit
import Verif.Os.ExitProps
import Verif.Os.CallGraph
import Verif.Os.CallGraphProps
import Verif.Clang.Wrapper
import Verif.Clang.WrapperProps
import Verif.Mpi.Quiesce
import Verif.Mpi.QuiesceProps
import Verif.Dumpi.Meta
import Verif.Dumpi.MetaProps
import Verif.Stats.Vtk
import Verif.Stats.VtkProps
import Verif.Apps.Pic
import Verif.Apps.PicProps
import Verif.Apps.PicCountProps
import Verif.Apps.PicSystemProps
import Verif.Topo.Opa
import Verif.Topo.OpaProps
import Verif.Nic.Merlin
import Verif.Nic.MerlinProps
import Verif.Params.Core
import Verif.Params.CoreProps
import Verif.Parallel.CoreLinks
import Verif.Parallel.CoreLinksProps
import Verif.Parallel.CoreTopoProps
import Verif.Apps.Boxml
import Verif.Apps.BoxmlSpec
import Verif.Apps.BoxmlInv
import Verif.Apps.BoxmlProps
import Verif.Apps.Phased
import Verif.Apps.Lulesh
import Verif.Apps.LuleshSpec
import Verif.Apps.LuleshMatch
import Verif.Apps.LuleshBuf
import Verif.Apps.LuleshProps
import Verif.Apps.Comd
import Verif.Apps.ComdCells
import Verif.Apps.ComdHalo
import Verif.Apps.ComdProps
import Verif.Apps.Hpcg
import Verif.Apps.HpcgCount
import Verif.Apps.HpcgShape
import Verif.Apps.HpcgPrime
import Verif.Apps.HpcgBest
import Verif.Apps.HpcgProps
import Verif.Params.Keywords
import Verif.Params.KeywordsProps
import Verif.Apps.Traffic
import Verif.Apps.TrafficProps
import Verif.Apps.TrafficEnd
