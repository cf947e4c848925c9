import Verif.Common.IdProps
import Verif.Common.HashIdProps
import Verif.Common.NumericProps
import Verif.Common.StringsProps
import Verif.Archive.Props
import Verif.JobQueue.Props
import Verif.JobQueue.Nested
import Verif.PTree.Props
import Verif.PTree.ChildrenProps
import Verif.PTree.UpdateProps
import Verif.PTree.LoadStringProps
import Verif.PTree.LoaderProps
import Verif.ValueStore.Props
import Verif.Timing.Props
import Verif.Timing.CorrectorProps
import Verif.Timing.MonotoneProps
import Verif.Timing.MachineProps
import Verif.Timing.AccuracyProps
import Verif.Timing.IntProps
import Verif.Logging.Props
import Verif.Logging.ConfigProps
import Verif.Logging.CallProps
import Verif.Kinematics.QuatProps
import Verif.Kinematics.RotProps
import Verif.Kinematics.RotSmallProps
import Verif.Kinematics.TransfProps
import Verif.Kinematics.HomProps
import Verif.Kinematics.BoxProps
import Verif.Kinematics.UncertainProps
import Verif.Kinematics.UncertainTransfProps
import Verif.Kinematics.ParamProps
import Verif.Kinematics.RotVecProps
import Verif.Kinematics.RoundTripProps
import Verif.Kinematics.SlerpProps
import Verif.Kinematics.ExpLogProps
import Verif.Kinematics.AxisAngleProps
import Verif.Kinematics.ThreePointProps
import Verif.Serial.MacroProps
import Verif.Serial.EqualProps
import Verif.Serial.BoostProps
import Verif.Serial.OpenCvProps
import Verif.Kinematics.UncertainValueProps
import Verif.Random.Props
import Verif.Random.DoubleProps
import Verif.SmEigen.Props
import Verif.Assert.Props
import Verif.Assert.CmdProps
import Verif.Kinematics.FromTreeProps
import Verif.Traits.Props
import Verif.PTree.InfoProps
import Verif.PTree.FilesProps
import Verif.Matlab.Props
import Verif.Python.DispatchProps
import Verif.Python.IdConvProps
import Verif.Python.LogProps
import Verif.ValueStore.VerboseProps
import Verif.Python.VsSetProps
import Verif.Common.CompareProps
import Verif.Common.RoundProps
import Verif.Common.QuadraticProps
import Verif.Kinematics.QuatDoubleProps
import Verif.Kinematics.TransfDoubleProps
import Verif.Kinematics.MatrixDoubleProps
import Verif.Kinematics.MatrixConvProps
import Verif.Kinematics.OplusProps
import Verif.Archive.DiskProps
import Verif.Archive.Views
import Verif.Logging.StatementProps
import Verif.Timing.StatDoubleProps
import Verif.Timing.ConcProps
import Verif.Python.PTreeProps
import Verif.Python.ProgressProps
import Verif.Common.ProgressProps
import Verif.Logging.TimeStringProps
import Verif.Archive.MatlabProps
import Verif.Timing.PrintProps
import Verif.Python.PlotProps
import Verif.Python.FrameProps
import Verif.Archive.LsmaProps
import Verif.Timing.CorrectorObjProps
import Verif.Kinematics.StaticTypeProps
import Verif.Kinematics.RandomDrawProps
import Verif.Kinematics.RotExpProps
import Verif.Random.ConcProps
import Verif.Kinematics.UncertainSetProps
import Verif.Common.PtimeProps
import Verif.Python.UncertainProps
import Verif.PTree.InfoFileProps
import Verif.PTree.CodecsProps
import Verif.PTree.InfoGrammarProps
import Verif.PTree.XmlFileProps
import Verif.PTree.IniFileProps
import Verif.PTree.IniGrammarProps
import Verif.PTree.JsonFileProps
import Verif.PTree.JsonGrammarProps
import Verif.PTree.XmlGrammarProps
import Verif.Kinematics.FromTreeDoubleProps
import Verif.PTree.SessionProps
import Verif.Timing.SlopeOffsetProps
import Verif.Kinematics.CovDoubleProps
import Verif.Kinematics.LogDoubleProps
import Verif.Kinematics.SlerpDoubleProps
import Verif.Kinematics.EulerDoubleProps
import Verif.Common.FormatProps
import Verif.Kinematics.RotVecDoubleProps
import Verif.Kinematics.ErDoubleProps
import Verif.Kinematics.HomDoubleProps
import Verif.SmEigen.DiffDoubleProps
import Verif.Kinematics.AngleDoubleProps
import Verif.Kinematics.RateDoubleProps
import Verif.Kinematics.ErRateProps
import Verif.Kinematics.RvRateProps
import Verif.Kinematics.RvInvProps
import Verif.Kinematics.MatDoubleProps
import Verif.Kinematics.ExpDiffProps
import Verif.Kinematics.LogDiffProps
import Verif.Kinematics.LerpDoubleProps
import Verif.Kinematics.LogJacProps
