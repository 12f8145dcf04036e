import Verif.Intervals.Props
import Verif.Partition.Props
import Verif.Tensor.Props
import Verif.Tensor.KeyProps
import Verif.Streams.Props
import Verif.Streams.TickProps
import Verif.Streams.ValueProps
import Verif.Streams.DynamicProps
import Verif.Schema.Props
import Verif.Lie.Props
import Verif.Sparse.Props
import Verif.Lie.MapProps
import Verif.Bases.Props
import Verif.Lite.Props
import Verif.Lite.TensorProps
import Verif.Lite.LieProps
import Verif.Lite.ContextDeriv
import Verif.Lite.ContextConvert
import Verif.Lite.ShuffleProps
import Verif.Lite.SizesDefault
import Verif.Poly.Props
import Verif.Poly.StoreProps
import Verif.Poly.ArchiveProps
import Verif.Args.Props
import Verif.Args.TreeProps
import Verif.Args.IncrementsProps
import Verif.Scalars.Props
import Verif.Scalars.AssignProps
import Verif.Scalars.ArithProps
import Verif.Scalars.EqProps
import Verif.Intervals.SegmentProps
import Verif.Lite.HandleModel
import Verif.Lite.HandleSpec
import Verif.Lite.HandleLemmas
import Verif.Lite.HandleRun
import Verif.Lite.HandleRead
import Verif.Lite.HandleRefuse
import Verif.Lite.HandleProps
import Verif.Arrays.Model
import Verif.Arrays.Spec
import Verif.Arrays.Lemmas
import Verif.Arrays.Ops
import Verif.Arrays.Convert
import Verif.Arrays.Steps
import Verif.Arrays.Good
import Verif.Arrays.Values
import Verif.Arrays.StorageProps
import Verif.Arrays.ValueProps
import Verif.Arrays.ConstProps
import Verif.Arrays.CopyProps
import Verif.Keys.Model
import Verif.Keys.Spec
import Verif.Keys.Trees
import Verif.Keys.Table
import Verif.Keys.Lemmas
import Verif.Keys.Props
import Verif.Query.Model
import Verif.Query.Metadata
import Verif.Query.Spec
import Verif.Query.Lemmas
import Verif.Query.Props
import Verif.Query.MetaLemmas
import Verif.Query.MetaProps
import Verif.Pickle.Model
import Verif.Pickle.Spec
import Verif.Pickle.Lemmas
import Verif.Pickle.Lemmas2
import Verif.Pickle.Props
import Verif.Parse.Model
import Verif.Parse.Spec
import Verif.Parse.Lemmas
import Verif.Parse.Lemmas2
import Verif.Parse.Props
import Verif.Ticks.Model
import Verif.Ticks.Spec
import Verif.Ticks.Lemmas
import Verif.Ticks.Props
import Verif.FromData.Model
import Verif.FromData.Spec
import Verif.FromData.Lemmas
import Verif.FromData.Props
import Verif.TensorFn.Model
import Verif.TensorFn.Spec
import Verif.TensorFn.Lemmas
import Verif.TensorFn.Props
import Verif.Lite.AntipodeModel
import Verif.Lite.AntipodeLemmas
import Verif.Lite.AntipodeProps
import Verif.Lite.AdjointModel
import Verif.Lite.AdjointLemmas
import Verif.Lite.AdjointProps
import Verif.Arrays.KeyModel
import Verif.Arrays.KeySpec
import Verif.Arrays.KeyLemmas
import Verif.Arrays.KeySteps
import Verif.Arrays.KeyProps
import Verif.Arrays.StreamModel
import Verif.Arrays.StreamProps
import Verif.Threads.Model
import Verif.Threads.Spec
import Verif.Threads.Lemmas
import Verif.Threads.Props
import Verif.Batch.Model
import Verif.Batch.Spec
import Verif.Batch.Lemmas
import Verif.Batch.Loop
import Verif.Batch.Props
import Verif.Generics.Model
import Verif.Generics.Spec
import Verif.Generics.Lemmas
import Verif.Generics.Machine
import Verif.Generics.Props
import Verif.Generics.ValueProps
import Verif.Generics.OwnModel
import Verif.Generics.OwnProps
import Verif.Sound.Model
import Verif.Sound.Spec
import Verif.Sound.Lemmas
import Verif.Sound.Props
import Verif.GenPoly.Model
import Verif.GenPoly.Spec
import Verif.GenPoly.Lemmas
import Verif.GenPoly.Steps
import Verif.GenPoly.Props
import Verif.GenPoly.EqProps
import Verif.BigNum.Model
import Verif.BigNum.Spec
import Verif.BigNum.Lemmas
import Verif.BigNum.Props
import Verif.GenArr.Model
import Verif.GenArr.Spec
import Verif.GenArr.Lemmas
import Verif.GenArr.Steps
import Verif.GenArr.Inv
import Verif.GenArr.Props
import Verif.PolyText.Model
import Verif.PolyText.Spec
import Verif.PolyText.Lemmas
import Verif.PolyText.Order
import Verif.PolyText.Props
import Verif.Numpy.Model
import Verif.Numpy.Spec
import Verif.Numpy.Props
import Verif.Tensor.IterModel
import Verif.Tensor.IterSpec
import Verif.Tensor.IterProps
import Verif.PyOps.Model
import Verif.PyOps.Spec
import Verif.PyOps.Props
import Verif.Args.Ctor
import Verif.Args.CtorProps
import Verif.HostMem.Model
import Verif.HostMem.Spec
import Verif.HostMem.Props
import Verif.CacheArr.Model
import Verif.CacheArr.Spec
import Verif.CacheArr.Props
import Verif.PyOps.Compare
import Verif.PyOps.CompareProps
import Verif.ElemIter.Model
import Verif.ElemIter.Spec
import Verif.ElemIter.Props
import Verif.Launch.Model
import Verif.Launch.Spec
import Verif.Launch.Props
import Verif.TypeName.Model
import Verif.TypeName.Spec
import Verif.TypeName.Props
