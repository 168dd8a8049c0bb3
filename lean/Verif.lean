import Verif.Intervals.Props
import Verif.Intervals.Props2
import Verif.Intervals.Sample
import Verif.Intervals.SampleSpec
import Verif.Intervals.SampleLemmas
import Verif.Intervals.SampleLemmas2
import Verif.Intervals.Props3
import Verif.Intervals.Equality
import Verif.Intervals.EqLemmas
import Verif.Intervals.Props4
import Verif.Intervals.Linspace
import Verif.Intervals.LinspaceSpec
import Verif.Intervals.LinspaceLemmas
import Verif.Intervals.Props5
import Verif.Intervals.Props6
import Verif.Intervals.Props7
import Verif.Intervals.Props8
import Verif.CUtils.Props
import Verif.Utils.Props
import Verif.Utils.Entropy
import Verif.Utils.Props2
import Verif.Utils.Props3
import Verif.Discrete.Props
import Verif.Discrete.Listing
import Verif.Discrete.Props2
import Verif.Discrete.Draw
import Verif.Discrete.Props3
import Verif.Mpe.Props
import Verif.Vars.Props
import Verif.Vars.Props2
import Verif.Vars.Props3
import Verif.Vars.Props4
import Verif.Vars.Props5
import Verif.Hash.Model
import Verif.Hash.Spec
import Verif.Hash.Lemmas
import Verif.Hash.Props
import Verif.Learn.Props
import Verif.Learn.Props2
import Verif.Learn.Props3
import Verif.Learn.Props4
import Verif.Learn.Props5
import Verif.Trees.Props
import Verif.Trees.Props2
import Verif.Trees.Props3
import Verif.Trees.Props4
import Verif.Trees.Props5
import Verif.Trees.Props6
import Verif.Trees.Props7
import Verif.Trees.Props8
import Verif.Trees.Props9
import Verif.Trees.Props10
import Verif.Trees.Props11
import Verif.Trees.Props25
import Verif.Trees.Props26
import Verif.Trees.Props27
import Verif.Trees.Props28
import Verif.Trees.Props29
import Verif.Trees.Props12
import Verif.Trees.Props13
import Verif.Trees.Props14
import Verif.Trees.Props15
import Verif.Trees.Props16
import Verif.Trees.Props17
import Verif.Trees.Consistent
import Verif.Trees.Props18
import Verif.Trees.Size
import Verif.Trees.Props19
import Verif.Trees.CropMix
import Verif.Trees.Props20
import Verif.Trees.Props21
import Verif.Trees.Props22
import Verif.Trees.Equal
import Verif.Trees.EqualSpec
import Verif.Trees.EqualLemmas
import Verif.Trees.Props23
import Verif.Trees.EqualLemmas2
import Verif.Trees.Props24
import Verif.Functions.Props
import Verif.Functions.Props2
import Verif.Functions.Props3
import Verif.Functions.Levels
import Verif.Functions.LevelsSpec
import Verif.Functions.LevelsLemmas
import Verif.Functions.Props4
import Verif.Functions.Elementary
import Verif.Functions.ElementarySpec
import Verif.Functions.ElementaryLemmas
import Verif.Functions.Props5
import Verif.Functions.Combine
import Verif.Functions.CombineSpec
import Verif.Functions.CombineLemmas
import Verif.Functions.CombineLemmas2
import Verif.Functions.CombineLemmas3
import Verif.Functions.CombineLemmas4
import Verif.Functions.Props6
import Verif.Functions.Approx
import Verif.Functions.ApproxSpec
import Verif.Functions.ApproxLemmas
import Verif.Functions.ApproxLemmas2
import Verif.Functions.ApproxLemmas3
import Verif.Functions.ApproxLemmas4
import Verif.Functions.ApproxLemmas5
import Verif.Functions.ApproxLemmas6
import Verif.Functions.ApproxLemmas7
import Verif.Functions.ApproxLemmas8
import Verif.Functions.ApproxLemmas9
import Verif.Functions.Props7
import Verif.Functions.Jaccard
import Verif.Functions.JaccardLemmas
import Verif.Functions.Props8
import Verif.Functions.Knots
import Verif.Functions.KnotsSpec
import Verif.Functions.KnotsLemmas
import Verif.Functions.Props9
import Verif.Functions.Build
import Verif.Functions.BuildLemmas
import Verif.Functions.Props10
import Verif.Functions.Props11
import Verif.Functions.Props12
import Verif.Functions.Props13
import Verif.Functions.Props14
import Verif.Table.Props
import Verif.Table.Props2
import Verif.Numeric.Props
import Verif.Numeric.Props2
import Verif.Numeric.Props3
import Verif.Numeric.CropSpan
import Verif.Numeric.Props4
import Verif.Numeric.Props5
import Verif.Numeric.Props6
import Verif.Numeric.Props7
import Verif.Numeric.Props8
import Verif.Numeric.Props9
import Verif.Numeric.Props10
import Verif.Numeric.Props11
import Verif.Numeric.Props12
import Verif.Numeric.Props13
import Verif.Numeric.Props14
import Verif.Numeric.Props15
import Verif.Numeric.Props16
import Verif.Numeric.Props17
import Verif.Numeric.ConvolutionSpec
import Verif.Numeric.Convolution
import Verif.Numeric.ConvolutionLemmas
import Verif.Numeric.ConvolutionLemmas2
import Verif.Numeric.ConvolutionLemmas3
import Verif.Numeric.ConvolutionLemmas4
import Verif.Numeric.ConvolutionLemmas5
import Verif.Numeric.Props18
import Verif.Numeric.RegLemmas3
import Verif.Numeric.Props19
import Verif.Numeric.Sum
import Verif.Numeric.SumSpec
import Verif.Numeric.SumLemmas
import Verif.Numeric.SumLemmas2
import Verif.Numeric.SumLemmas3
import Verif.Numeric.SumLemmas4
import Verif.Numeric.SumLemmas5
import Verif.Numeric.Props20
import Verif.Numeric.ApproxDist
import Verif.Numeric.ApproxDistLemmas
import Verif.Numeric.Props21
import Verif.Numeric.Blur
import Verif.Numeric.BlurSpec
import Verif.Numeric.BlurLemmas
import Verif.Numeric.Props22
import Verif.Scaler.Props
import Verif.Gauss.Props
import Verif.Gauss.Props2
import Verif.Gauss.Props3
import Verif.Gauss.Props4
import Verif.Gauss.Props5
import Verif.Seq.Props
import Verif.Seq.Props2
import Verif.Seq.Props3
