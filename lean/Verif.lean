import Verif.LevMatrix.Props
import Verif.AscGraph.Props
import Verif.Token.Props
import Verif.Segmentor.Props
import Verif.Scorer.Props
import Verif.Net.Props
import Verif.Text.Props
import Verif.Lines.Props
import Verif.Split.Props
import Verif.Sgml.Props
import Verif.Score.Props
import Verif.Rover.Props
import Verif.LList.Props
import Verif.Pad.Props
import Verif.Stats.Props
import Verif.Mapsswe.Props
import Verif.Chan.Props
import Verif.Mfa.Props
import Verif.Print.Props
import Verif.Corresp.Props
import Verif.Refs.Props
import Verif.Topo.Props
import Verif.Ident.Props
import Verif.LineStyle.Props
import Verif.NetBuild.Props
import Verif.Uem.Props
import Verif.Rfilter.Props
import Verif.CtmIn.Props
import Verif.StmIn.Props
import Verif.Chop.Props
import Verif.WtokeNet.Props
import Verif.RttmIn.Props
import Verif.CharNet.Props
import Verif.Expand.Props
import Verif.Store.Props
import Verif.Infer.Props
import Verif.Weigh.Props
import Verif.Detail.Props
import Verif.Lur.Props
import Verif.Det.Props
import Verif.Feed.Props
import Verif.Diff.Props
import Verif.Reduce.Props
import Verif.Anovar.Props
import Verif.Range.Props
import Verif.Unified.Props
import Verif.AscArgs.Props
import Verif.Record.Props
import Verif.Rpg.Props
import Verif.AscSgml.Props
import Verif.ScliteArgs.Props
import Verif.Summary.Props
import Verif.SysRep.Props
import Verif.Nway.Props
import Verif.AlignLog.Props
import Verif.Diar.Props
import Verif.Rttm.Props
import Verif.ArabNorm.Props
import Verif.Valid.Props
import Verif.Slat.Props
import Verif.Acomp.Props
import Verif.Chfilt.Props
import Verif.TextVal.Props
import Verif.Rttm2Ctm.Props
import Verif.Hub.Props
import Verif.Sih.Props
import Verif.Slm.Props
import Verif.Bo.Props
import Verif.Mgram.Props
import Verif.Gt.Props
import Verif.Perp.Props
import Verif.Count.Props
import Verif.Tempf.Props
import Verif.Fof.Props
import Verif.Interp.Props
