import Verif.Props.BitIO
import Verif.Props.Coders
import Verif.Props.Simple
import Verif.Props.Trie
import Verif.Props.LZ78
import Verif.Props.LZW
import Verif.Model.Judy
import Verif.Props.Judy
import Verif.Props.LZSSWindow
import Verif.Props.LZSSCoding
import Verif.Props.TextDS
import Verif.Props.LZSSLCP
import Verif.Props.BWT
import Verif.Props.Restrict
import Verif.Props.Input
import Verif.Props.Chain
import Verif.Props.Huffman
import Verif.Props.SLE
import Verif.Props.UintT
import Verif.Props.Rank
import Verif.Props.Heap
import Verif.Props.HashMap
import Verif.Props.BPV
import Verif.Props.LcpComp
import Verif.Props.Arithmetic
import Verif.Props.RePair
import Verif.Props.LZ78U
import Verif.Props.SparseISA
import Verif.Props.CompLCP
import Verif.Props.Generators
import Verif.Props.AlgoParser
import Verif.Props.OptionEval
import Verif.Props.LFS
import Verif.Props.LFSTree
import Verif.Props.LFS2
import Verif.Props.SuffixTree
import Verif.Props.LFSReal
import Verif.Props.Esp
import Verif.Props.EspSorted
import Verif.Props.EspMono
import Verif.Props.EspFitWT
import Verif.Props.EspHuffman
import Verif.Props.CompactHash
import Verif.Model.Rolling
import Verif.Lemmas.Rolling
import Verif.Props.Rolling
import Verif.Props.KarpRabin
import Verif.Props.RollingLZW
import Verif.Model.HashTries
import Verif.Lemmas.HashTries
import Verif.Lemmas.HashTriesTab
import Verif.Lemmas.HashTriesStuck
import Verif.Lemmas.HashTriesEnd
import Verif.Lemmas.HashTriesHang
import Verif.Props.HashTries
import Verif.Model.DivSufSort
import Verif.Spec.DivSufSort
import Verif.Lemmas.SufOrd
import Verif.Lemmas.DivSufSortScan
import Verif.Lemmas.DivSufSortPlace
import Verif.Lemmas.DivSufSort
import Verif.Props.DivSufSort
import Verif.Model.DivSufSortMid
import Verif.Model.DivSufSortSS
import Verif.Model.DivSufSortIntro
import Verif.Spec.DivSufSortMid
import Verif.Lemmas.DivSufSortKey
import Verif.Lemmas.DivSufSortRank
import Verif.Lemmas.DivSufSortLoop
import Verif.Lemmas.DivSufSortDist
import Verif.Lemmas.DivSufSortMid
import Verif.Lemmas.DivSufSortFull
import Verif.Lemmas.DivSufSortSS
import Verif.Lemmas.DivSufSortSS2
import Verif.Lemmas.DivSufSortSS3
import Verif.Lemmas.DivSufSortIntro1
import Verif.Lemmas.DivSufSortIntro2
import Verif.Lemmas.DivSufSortIntro3
import Verif.Lemmas.DivSufSortIntro4
import Verif.Lemmas.DivSufSortIntro5
import Verif.Lemmas.DivSufSortIntro6
import Verif.Lemmas.DivSufSortIntro7
import Verif.Lemmas.DivSufSortHeap
import Verif.Lemmas.DivSufSortSort
import Verif.Props.DivSufSortMid
import Verif.Props.Cedar
import Verif.Props.EspIPD
import Verif.Props.Stat
import Verif.Props.Json
import Verif.Props.Malloc
import Verif.Props.View
import Verif.Props.MemStream
import Verif.Props.Output
import Verif.Model.EndToEnd
import Verif.Props.EndToEnd
import Verif.Spec.TextDSObj
import Verif.Model.TextDSObj
import Verif.Lemmas.TextDSObj
import Verif.Props.TextDSObj
import Verif.Model.LiteralEntropy
import Verif.Props.LiteralEntropy
import Verif.Props.Malformed
import Verif.Model.DivSufSortMerge
import Verif.Model.DivSufSortSwap
import Verif.Lemmas.DivSufSortMerge1
import Verif.Lemmas.DivSufSortMerge2
import Verif.Lemmas.DivSufSortMerge3
import Verif.Lemmas.DivSufSortMerge4
import Verif.Lemmas.DivSufSortMerge5
