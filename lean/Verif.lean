import Verif.Alloc.Model
import Verif.Alloc.Props
import Verif.BST.Edit
import Verif.BST.Iter
import Verif.BST.Model
import Verif.BST.Props
import Verif.BST.Sep
import Verif.BST.Tree
import Verif.Base.FixedRootProps
import Verif.Base.Model
import Verif.Base.Props
import Verif.Base.RootProps
import Verif.Bits.Model
import Verif.Bits.PowProps
import Verif.Bits.Props
import Verif.Bits.TableProps
import Verif.Chain.BctModel
import Verif.Chain.BctProps
import Verif.Chain.Blocks
import Verif.Chain.Model
import Verif.Chain.Props
import Verif.Chain.Run
import Verif.Chain.Spec
import Verif.Chain.Tour
import Verif.Chain.Tree
import Verif.Chromatic.Model
import Verif.Chromatic.Props
import Verif.Clifford.Model
import Verif.Clifford.Props
import Verif.Collections.Model
import Verif.Collections.Props
import Verif.CombPP.Math
import Verif.CombPP.Model
import Verif.CombPP.Props
import Verif.Combinatorics.CombProps
import Verif.Combinatorics.Model
import Verif.Combinatorics.PartProps
import Verif.Combinatorics.PermProps
import Verif.Common.Loop
import Verif.Common.Stride
import Verif.Common.Vec
import Verif.Concurrency.Model
import Verif.Concurrency.Props
import Verif.Container.BitVecHistory
import Verif.Container.BitVecLemmas
import Verif.Container.BitVecModel
import Verif.Container.BitVecProps
import Verif.Container.BitVecReverse
import Verif.Container.BitVecScan
import Verif.Container.BitVecShift
import Verif.Container.FenwickModel
import Verif.Container.FenwickProps
import Verif.Container.HeapModel
import Verif.Container.HeapProps
import Verif.Container.LazySegLemmas
import Verif.Container.LazySegModel
import Verif.Container.LazySegProps
import Verif.Container.SegTreeModel
import Verif.Container.SegTreeProps
import Verif.Convergents.Model
import Verif.Convergents.Props
import Verif.Convergents.SqrtProps
import Verif.Convolution.Model
import Verif.Convolution.Props
import Verif.Convolution.SubsetProps
import Verif.Convolution.Transform
import Verif.Counting.CombProps
import Verif.Counting.Model
import Verif.Counting.PartMath
import Verif.Counting.PartProps
import Verif.Counting.StirlingProps
import Verif.Digits.FareyProps
import Verif.Digits.Model
import Verif.Digits.Props
import Verif.Dirichlet.Model
import Verif.Dirichlet.MultProps
import Verif.Dirichlet.Props
import Verif.Dirichlet.SieveProps
import Verif.Dirichlet.SumModel
import Verif.Dirichlet.SumProps
import Verif.DoubleInt.Bits
import Verif.DoubleInt.Model
import Verif.DoubleInt.Props
import Verif.DoubleInt.Spec
import Verif.Factorization.Model
import Verif.Factorization.Props
import Verif.Fft.ConvProps
import Verif.Fft.InPlace
import Verif.Fft.Model
import Verif.Fft.Props
import Verif.Fraction.Model
import Verif.Fraction.Props
import Verif.Graph.DsuModel
import Verif.Graph.DsuProps
import Verif.Graph.GraphModel
import Verif.Graph.GraphProps
import Verif.GraphAlg.ClosureModel
import Verif.GraphAlg.ClosureProps
import Verif.GraphAlg.DfsModel
import Verif.GraphAlg.DfsProps
import Verif.GraphAlg.DfsSpec
import Verif.GraphAlg.DijkstraModel
import Verif.GraphAlg.DijkstraProps
import Verif.GraphAlg.DinicModel
import Verif.GraphAlg.DinicProps
import Verif.GraphAlg.FlowSpec
import Verif.GraphAlg.FloydModel
import Verif.GraphAlg.FloydProps
import Verif.GraphAlg.LcaModel
import Verif.GraphAlg.LcaProps
import Verif.GraphAlg.MatchingProps
import Verif.GraphAlg.PrimProps
import Verif.GraphAlg.Sat2Model
import Verif.GraphAlg.Sat2Props
import Verif.GraphAlg.Spec
import Verif.GraphAlg.TarjanModel
import Verif.GraphAlg.TarjanProps
import Verif.GraphAlg.TopoProps
import Verif.GraphAlg.WSpec
import Verif.Hash.Model
import Verif.Hash.Props
import Verif.Hld.ExModel
import Verif.Hld.ExProps
import Verif.Hld.ExSpec
import Verif.Hld.Model
import Verif.Hld.Props
import Verif.Hld.Run
import Verif.Hld.Spec
import Verif.Hld.Tree
import Verif.Holders.FactModel
import Verif.Holders.FactProps
import Verif.Holders.PrimeModel
import Verif.Holders.PrimeProps
import Verif.Hungarian.Model
import Verif.Hungarian.Phase
import Verif.Hungarian.Props
import Verif.Hungarian.Spec
import Verif.Hungarian.Tree
import Verif.IO.ReaderModel
import Verif.IO.ReaderProps
import Verif.IO.WriterModel
import Verif.IO.WriterProps
import Verif.LinkCut.Access
import Verif.LinkCut.Model
import Verif.LinkCut.Props
import Verif.LinkCut.Splay
import Verif.LinkCut.Tree
import Verif.Maps.Model
import Verif.Maps.Props
import Verif.Matrix.Model
import Verif.Matrix.Props
import Verif.Mersenne.Model
import Verif.Mersenne.Props
import Verif.Mertens.Model
import Verif.Mertens.PiModel
import Verif.Mertens.PiProps
import Verif.Mertens.Props
import Verif.Modulo.CrtProps
import Verif.Modulo.GcdEx
import Verif.Modulo.InvProps
import Verif.Modulo.JacobiProps
import Verif.Modulo.Model
import Verif.Modulo.Props
import Verif.Modulo.RingProps
import Verif.Moebius.Model
import Verif.Moebius.Props
import Verif.Nimber.C67
import Verif.Nimber.Fermat
import Verif.Nimber.Model
import Verif.Nimber.Mul
import Verif.Nimber.Props
import Verif.Nimber.Theory
import Verif.NumTheory.Crt
import Verif.NumTheory.DLog
import Verif.NumTheory.DLogPp
import Verif.NumTheory.Garner
import Verif.NumTheory.Model
import Verif.NumTheory.Order
import Verif.NumTheory.Roots
import Verif.NumTheory.Sqrt
import Verif.Output.Model
import Verif.Output.Props
import Verif.Parser.ShuntingModel
import Verif.Parser.ShuntingProps
import Verif.Pell.Class
import Verif.Pell.Cycle
import Verif.Pell.General
import Verif.Pell.Listing
import Verif.Pell.Model
import Verif.Pell.PQa
import Verif.Pell.Run
import Verif.Pell.Small
import Verif.Pell.Solve
import Verif.Pell.Units
import Verif.Permutation.Model
import Verif.Permutation.Props
import Verif.Pga.Coords
import Verif.Pga.Laws
import Verif.Pga.Model
import Verif.Pga.Props
import Verif.Pga.Sandwich
import Verif.Pga.Universal
import Verif.Pga.Value
import Verif.PolyMod.Conv
import Verif.PolyMod.Model
import Verif.PolyMod.Props
import Verif.Polynom.DivProps
import Verif.Polynom.Model
import Verif.Polynom.MulProps
import Verif.PrimeCount.Model
import Verif.PrimeCount.Props
import Verif.PrimePi.Model
import Verif.PrimePi.Props
import Verif.Primes.DivisorProps
import Verif.Primes.FactorModel
import Verif.Primes.FactorProps
import Verif.Primes.SegmentProps
import Verif.Primes.SieveModel
import Verif.Primes.SieveProps
import Verif.Primes.TablesModel
import Verif.Primes.TablesProps
import Verif.PushRelabel.Model
import Verif.PushRelabel.Props
import Verif.PushRelabel.Run
import Verif.PushRelabel.Theory
import Verif.Quadratic.Model
import Verif.Quadratic.Props
import Verif.Random.Model
import Verif.Random.Props
import Verif.Ranges.Model
import Verif.Ranges.Props
import Verif.Recurrence.BernProps
import Verif.Recurrence.BmProps
import Verif.Recurrence.Model
import Verif.Recurrence.Props
import Verif.Rmq.Model
import Verif.Rmq.Props
import Verif.Rmq.Spec
import Verif.RootWrapper.Model
import Verif.RootWrapper.Props
import Verif.Search.BinaryProps
import Verif.Search.KmpProps
import Verif.Search.Model
import Verif.Series.Arith
import Verif.Series.Cong
import Verif.Series.Model
import Verif.Series.Props
import Verif.Squares.Corn
import Verif.Squares.Math
import Verif.Squares.Model
import Verif.Squares.Props
import Verif.SuffixArray.Buckets
import Verif.SuffixArray.InduceL
import Verif.SuffixArray.InduceS
import Verif.SuffixArray.Model
import Verif.SuffixArray.Names
import Verif.SuffixArray.Place
import Verif.SuffixArray.Props
import Verif.SuffixArray.Reduce
import Verif.SuffixArray.SaIs
import Verif.SuffixArray.Spec
import Verif.SuffixArray.Theory
import Verif.SumMult.Model
import Verif.SumMult.Model23
import Verif.SumMult.Props23
import Verif.SumMult.Props34
import Verif.SumMult.Rough
import Verif.SumMult.Spec
import Verif.SumMult.Step2
import Verif.SumMult.Step3
import Verif.SumMult.Table
import Verif.SumPhi.Model
import Verif.SumPhi.Props
import Verif.SumPhi.PropsDL
import Verif.SumPhi.Spec
import Verif.SumPhi.SumM
import Verif.Sums.Model
import Verif.Sums.PowModel
import Verif.Sums.PowProps
import Verif.Sums.Props
import Verif.Symbolic.Model
import Verif.Symbolic.Props
import Verif.Tokenizer.Model
import Verif.Tokenizer.Props
import Verif.Treap.Heap
import Verif.Treap.Model
import Verif.Treap.Props
import Verif.Treap.Rope
import Verif.Tries.AhoModel
import Verif.Tries.AhoProps
import Verif.Tries.AhoSpec
import Verif.Tries.Keys
import Verif.Tries.PalModel
import Verif.Tries.PalProps
import Verif.Tries.PalSpec
import Verif.Tries.PrefixModel
import Verif.Tries.PrefixProps
import Verif.Tries.PrefixSpec
import Verif.Triples.Almost
import Verif.Triples.Eis
import Verif.Triples.Lists
import Verif.Triples.Model
import Verif.Triples.Pyth
import Verif.Triples.Tree
import Verif.Vectors.Model
import Verif.Vectors.Props
import Verif.Zeros.Model
import Verif.Zeros.Props
import Verif.Zeros.Search
