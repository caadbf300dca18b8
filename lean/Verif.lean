import Verif.Res
import Verif.Spec
import Verif.Sizing
import Verif.K2
import Verif.C0
import Verif.C0Proofs
import Verif.DK
import Verif.DKProofs
import Verif.RealSizing
import Verif.Hist
import Verif.Congr
import Verif.Weak
import Verif.Witness
import Verif.DKMore
import Verif.PropsGraph
import Verif.PropsGraph2
import Verif.PropsGraph3
import Verif.EHT
import Verif.Iter
import Verif.IterProofs
import Verif.PropsC0
import Verif.PropsIter
import Verif.Algo
import Verif.AlgoSpec
import Verif.AlgoProofs
import Verif.TriProofs
import Verif.PRProofs
import Verif.PropsAlgo
import Verif.Ser
import Verif.SerProofs
import Verif.PropsSer
import Verif.Crash
import Verif.PropsCrash
import Verif.RealTab
import Verif.Slots
import Verif.Delay
import Verif.DelayProofs
import Verif.PropsDelay
import Verif.Bits
import Verif.BitsProofs
import Verif.Union
import Verif.UnionProofs
import Verif.UnionProofs2
import Verif.PropsUnion
import Verif.Munro
import Verif.MunroProofs
import Verif.MunroInv
import Verif.MunroHist
import Verif.MunroBudget
import Verif.MunroQuery
import Verif.PropsMunro
import Verif.Conc
import Verif.Bg
import Verif.BgProofs
import Verif.BgCall
import Verif.BgDel
import Verif.BgHist
import Verif.BgLive
import Verif.BgFoot
import Verif.PropsBg
import Verif.BgNeigh
import Verif.BgMore
import Verif.BgTwo
import Verif.Alias
import Verif.PropsAlias
import Verif.AliasIter
import Verif.VarAlgo
import Verif.CondVar
import Verif.CondVarLive
import Verif.PropsCondVar
import Verif.BgIter
import Verif.PropsBgIter
import Verif.BitK2
import Verif.PropsBit
import Verif.MunroIter
import Verif.PropsMunroIter
import Verif.MunroSer
import Verif.PropsMunroSer
import Verif.MunroLate
import Verif.MunroFast
import Verif.Tab128
import Verif.PropsMunroLate
import Verif.NbLoop
import Verif.PropsNbLoop
import Verif.Cost
import Verif.PropsCost
import Verif.DelayCost
import Verif.MunroCost
import Verif.AliasDelay
import Verif.DelayFam
import Verif.PropsAliasDelay
import Verif.AliasMunro
import Verif.PropsAliasMunro
import Verif.PropsAgree
import Verif.Catch
import Verif.UnionOver
import Verif.PropsFamMunro
import Verif.MunroOver
import Verif.ProgSpec
import Verif.Prog
import Verif.PropsProg
import Verif.WinSpec
import Verif.Marks
import Verif.Prune
import Verif.PropsPrune
import Verif.PruneDelay
import Verif.PropsPruneDelay
import Verif.FloatSizing
import Verif.Calib
import Verif.PropsFloat
import Verif.EdgeDel
import Verif.PropsEdgeDel
import Verif.Restart
import Verif.PropsRank
import Verif.Cluster
import Verif.AlgoCopy
import Verif.PRFloat
import Verif.PRRound
import Verif.IEEE
import Verif.PropsRankF
import Verif.ClusterF
import Verif.Machine
import Verif.PropsMachine
import Verif.IterOps
import Verif.PropsIterOps
import Verif.PropsBgFew
import Verif.ConcMany
import Verif.ReadSpec
import Verif.Readers
import Verif.PropsReaders
import Verif.PropsBgReaders
import Verif.PropsFloatBg
import Verif.CopySpec
import Verif.OwnCopies
import Verif.PropsCopies
import Verif.TextSpec
import Verif.Tools
import Verif.PropsTools
import Verif.PropsToolsAll
import Verif.PropsFloatCost
import Verif.PropsWeight
import Verif.Reorg
import Verif.ReorgWork
import Verif.PropsReorg
