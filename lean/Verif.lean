import Verif.Ann.Model
import Verif.Ann.Props
import Verif.AuthorTopic.AscentProps
import Verif.AuthorTopic.BoundModel
import Verif.AuthorTopic.BoundProps
import Verif.AuthorTopic.InferModel
import Verif.AuthorTopic.InferProps
import Verif.AuthorTopic.Model
import Verif.AuthorTopic.Props
import Verif.AuthorTopic.TrainModel
import Verif.AuthorTopic.TrainProps
import Verif.Callbacks.Model
import Verif.Callbacks.Props
import Verif.Coherence.AccumModel
import Verif.Coherence.AggregateModel
import Verif.Coherence.AggregateProps
import Verif.Coherence.CompareModel
import Verif.Coherence.CompareProps
import Verif.Coherence.ContextModel
import Verif.Coherence.ContextProps
import Verif.Coherence.CorpusProps
import Verif.Coherence.FailModel
import Verif.Coherence.FailProps
import Verif.Coherence.InitModel
import Verif.Coherence.InitProps
import Verif.Coherence.MeasureModel
import Verif.Coherence.MeasureProps
import Verif.Coherence.ParallelModel
import Verif.Coherence.ParallelProps
import Verif.Coherence.SegmentModel
import Verif.Coherence.SegmentProps
import Verif.Coherence.StateModel
import Verif.Coherence.StateProps
import Verif.Coherence.WindowLemmas
import Verif.Coherence.WindowProps
import Verif.Convert.Model
import Verif.Convert.Props
import Verif.Dictionary.CrashProps
import Verif.Dictionary.Effects
import Verif.Dictionary.FilterProps
import Verif.Dictionary.Invariant
import Verif.Dictionary.Lemmas
import Verif.Dictionary.MergeProps
import Verif.Dictionary.Model
import Verif.Dictionary.MoreModel
import Verif.Dictionary.MoreProps
import Verif.Dictionary.Props
import Verif.Dictionary.PruneProps
import Verif.Dictionary.Spec
import Verif.Dictionary.TextModel
import Verif.Dictionary.TextProps
import Verif.Doc2Vec.FileProps
import Verif.Doc2Vec.InferProps
import Verif.Doc2Vec.LifeModel
import Verif.Doc2Vec.LifeProps
import Verif.Doc2Vec.SaveModel
import Verif.Doc2Vec.SaveProps
import Verif.Doc2Vec.StepModel
import Verif.Doc2Vec.StepProps
import Verif.Doc2Vec.TagsModel
import Verif.Doc2Vec.TagsProps
import Verif.Docsim.IterModel
import Verif.Docsim.IterProps
import Verif.Docsim.Model
import Verif.Docsim.ParModel
import Verif.Docsim.ParProps
import Verif.Docsim.Props
import Verif.Docsim.QueryModel
import Verif.Docsim.QueryProps
import Verif.Downloader.HelpModel
import Verif.Downloader.HelpProps
import Verif.Downloader.Model
import Verif.Downloader.Props
import Verif.FastText.BatchModel
import Verif.FastText.BatchProps
import Verif.FastText.BinModel
import Verif.FastText.BinProps
import Verif.FastText.CutProps
import Verif.FastText.NgramModel
import Verif.FastText.NgramProps
import Verif.FastText.UnpackModel
import Verif.FastText.UnpackProps
import Verif.FastText.VectorModel
import Verif.FastText.VectorProps
import Verif.Formats.AnyProps
import Verif.Formats.CrashProps
import Verif.Formats.FieldProps
import Verif.Formats.LineModel
import Verif.Formats.LineProps
import Verif.Formats.MmModel
import Verif.Formats.MmProps
import Verif.Formats.WordProps
import Verif.FtTrain.Model
import Verif.FtTrain.Props
import Verif.HashDict.Model
import Verif.HashDict.Props
import Verif.HashDict.TextModel
import Verif.HashDict.TextProps
import Verif.Hdp.AscentProps
import Verif.Hdp.Model
import Verif.Hdp.OutModel
import Verif.Hdp.OutProps
import Verif.Hdp.Props
import Verif.Hdp.QueryProps
import Verif.Hdp.ScoreModel
import Verif.Hdp.ScoreProps
import Verif.Indexed.Model
import Verif.Indexed.Props
import Verif.KeyedVectors.EvalModel
import Verif.KeyedVectors.EvalProps
import Verif.KeyedVectors.FormatModel
import Verif.KeyedVectors.FormatProps
import Verif.KeyedVectors.GeomModel
import Verif.KeyedVectors.GeomProps
import Verif.KeyedVectors.Model
import Verif.KeyedVectors.SimModel
import Verif.KeyedVectors.SimProps
import Verif.KeyedVectors.StoreProps
import Verif.KeyedVectors.WmdModel
import Verif.KeyedVectors.WmdProps
import Verif.Lda.BoundModel
import Verif.Lda.BoundProps
import Verif.Lda.DirichletProps
import Verif.Lda.DispatcherModel
import Verif.Lda.DispatcherProps
import Verif.Lda.EmModel
import Verif.Lda.EmProps
import Verif.Lda.EndProps
import Verif.Lda.FaultModel
import Verif.Lda.FaultProps
import Verif.Lda.HistoryProps
import Verif.Lda.InferModel
import Verif.Lda.InferProps
import Verif.Lda.MulticoreFailProps
import Verif.Lda.MulticoreModel
import Verif.Lda.MulticoreProps
import Verif.Lda.PerWordModel
import Verif.Lda.PerWordProps
import Verif.Lda.PriorProps
import Verif.Lda.StopProps
import Verif.Lda.TrainModel
import Verif.Lda.TrainProps
import Verif.Lda.UpdateModel
import Verif.Lda.UpdateProps
import Verif.LdaDiff.Model
import Verif.LdaDiff.Props
import Verif.LdaSeq.AscentProps
import Verif.LdaSeq.FitModel
import Verif.LdaSeq.FitProps
import Verif.LdaSeq.Kalman
import Verif.LdaSeq.Model
import Verif.LdaSeq.Props
import Verif.LdaSeq.StopProps
import Verif.Lev.Model
import Verif.Lev.Props
import Verif.Life.Model
import Verif.Life.Props
import Verif.Life.VocabProps
import Verif.Lsi.ProjModel
import Verif.Lsi.ProjProps
import Verif.Lsi.SvdModel
import Verif.Lsi.SvdProps
import Verif.Lsi.SvdTwoProps
import Verif.MatSim.MatrixProps
import Verif.MatSim.Model
import Verif.MatSim.Props
import Verif.MatSim.SoftModel
import Verif.MatSim.SoftProps
import Verif.Matutils.ArgsortProps
import Verif.Matutils.LogNormModel
import Verif.Matutils.LogNormProps
import Verif.Matutils.NormModel
import Verif.Matutils.NormProps
import Verif.Matutils.PsiModel
import Verif.Matutils.PsiProps
import Verif.Matutils.SparseModel
import Verif.Matutils.SparseProps
import Verif.Matutils.UnitModel
import Verif.Matutils.UnitProps
import Verif.Nmf.Model
import Verif.Nmf.Props
import Verif.Nmf.StopModel
import Verif.Nmf.StopProps
import Verif.Phrases.FindModel
import Verif.Phrases.FindProps
import Verif.Phrases.FrozenProps
import Verif.Phrases.Model
import Verif.Phrases.ScanProps
import Verif.Phrases.ScoreModel
import Verif.Phrases.ScoreProps
import Verif.Phrases.TrainProps
import Verif.Pipeline.Props
import Verif.Poincare.BallModel
import Verif.Poincare.CsvModel
import Verif.Poincare.CsvProps
import Verif.Poincare.DataModel
import Verif.Poincare.DataProps
import Verif.Poincare.EvalModel
import Verif.Poincare.EvalProps
import Verif.Poincare.GradProps
import Verif.Poincare.MetricProps
import Verif.Poincare.NavModel
import Verif.Poincare.NavProps
import Verif.Poincare.QueryModel
import Verif.Poincare.QueryProps
import Verif.Poincare.SampleModel
import Verif.Poincare.SampleProps
import Verif.Poincare.StepModel
import Verif.Poincare.StepProps
import Verif.Poincare.TrainModel
import Verif.Poincare.TrainProps
import Verif.Porter.Model
import Verif.Porter.Props
import Verif.Porter.RuleProps
import Verif.Porter.RuleSpec
import Verif.Preprocess.Model
import Verif.Preprocess.Props
import Verif.Preprocess.ReModel
import Verif.Preprocess.ReProps
import Verif.Preprocess.ReWikiProps
import Verif.Py.Count
import Verif.Py.Dict
import Verif.Py.Regex
import Verif.Py.Sort
import Verif.Py.Text
import Verif.Rp.Model
import Verif.Rp.Props
import Verif.SaveLoad.CrashProps
import Verif.SaveLoad.HeapModel
import Verif.SaveLoad.HeapProps
import Verif.SaveLoad.Model
import Verif.SaveLoad.Props
import Verif.SaveLoad.TopicModel
import Verif.SaveLoad.TopicProps
import Verif.SaveLoad.TotalProps
import Verif.Score.Model
import Verif.Score.Props
import Verif.Sharded.FormatModel
import Verif.Sharded.FormatProps
import Verif.Sharded.Model
import Verif.Sharded.Props
import Verif.Show.Model
import Verif.Show.Props
import Verif.Termsim.IndexModel
import Verif.Termsim.IndexProps
import Verif.Termsim.Model
import Verif.Termsim.NormProps
import Verif.Termsim.Props
import Verif.Termsim.RefuseProps
import Verif.Termsim.SoftModel
import Verif.Termsim.SoftProps
import Verif.Termsim.WidthModel
import Verif.Termsim.WidthProps
import Verif.TextCorpus.CorpusModel
import Verif.TextCorpus.CorpusProps
import Verif.TextCorpus.DirModel
import Verif.TextCorpus.DirProps
import Verif.TextCorpus.SampleModel
import Verif.TextCorpus.SampleProps
import Verif.Tfidf.InitModel
import Verif.Tfidf.InitProps
import Verif.Tfidf.LogEntropyModel
import Verif.Tfidf.LogEntropyProps
import Verif.Tfidf.Model
import Verif.Tfidf.Props
import Verif.Tfidf.SmartProps
import Verif.Topic.InputModel
import Verif.Topic.InputProps
import Verif.TransMat.Model
import Verif.TransMat.Props
import Verif.Upgrade.Model
import Verif.Upgrade.Props
import Verif.Utils.ChunkModel
import Verif.Utils.ChunkProps
import Verif.Utils.HelperModel
import Verif.Utils.HelperProps
import Verif.Utils.PeekModel
import Verif.Utils.PeekProps
import Verif.Utils.RandomModel
import Verif.Utils.RandomProps
import Verif.Utils.SyncModel
import Verif.Utils.SyncProps
import Verif.Utils.Utf8Model
import Verif.Utils.Utf8Props
import Verif.Utils.ViewModel
import Verif.Utils.ViewProps
import Verif.Utils.VocabModel
import Verif.Utils.VocabProps
import Verif.VecFile.Model
import Verif.VecFile.Props
import Verif.W2V.CbowProps
import Verif.W2V.DirModel
import Verif.W2V.DirProps
import Verif.W2V.DryModel
import Verif.W2V.DryProps
import Verif.W2V.EpochProps
import Verif.W2V.FailModel
import Verif.W2V.FailProps
import Verif.W2V.FileTrainModel
import Verif.W2V.FileTrainProps
import Verif.W2V.HsModel
import Verif.W2V.HsProps
import Verif.W2V.HuffmanModel
import Verif.W2V.HuffmanProps
import Verif.W2V.JobProps
import Verif.W2V.NegModel
import Verif.W2V.NegProps
import Verif.W2V.NullModel
import Verif.W2V.NullProps
import Verif.W2V.OnlineModel
import Verif.W2V.OnlineProps
import Verif.W2V.ReadersModel
import Verif.W2V.ReadersProps
import Verif.W2V.StepModel
import Verif.W2V.StepProps
import Verif.W2V.SubsampleModel
import Verif.W2V.SubsampleProps
import Verif.W2V.TrainModel
import Verif.W2V.VocabModel
import Verif.W2V.VocabProps
import Verif.W2V.WindowModel
import Verif.W2V.WindowProps
import Verif.Wiki.CellProps
import Verif.Wiki.CorpusModel
import Verif.Wiki.CorpusProps
import Verif.Wiki.JsonModel
import Verif.Wiki.JsonProps
import Verif.Wiki.MarkupLinkProps
import Verif.Wiki.MarkupModel
import Verif.Wiki.MarkupProps
import Verif.Wiki.PageModel
import Verif.Wiki.PageProps
import Verif.Wiki.SegModel
import Verif.Wiki.SegProps
import Verif.Wiki.TemplateModel
import Verif.Wiki.TemplateProps
import Verif.Wiki.XmlModel
import Verif.Wiki.XmlProps
