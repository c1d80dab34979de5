import Verif.Abi
import Verif.AbiCall
import Verif.AbiCallProps
import Verif.AbiContract
import Verif.AbiContractLemmas
import Verif.AbiContractProps
import Verif.AbiConv
import Verif.AbiConvBack
import Verif.AbiConvLemmas
import Verif.AbiConvProps
import Verif.AbiDescr
import Verif.AbiDescrLemmas
import Verif.AbiDescrProps
import Verif.AbiGood
import Verif.AbiInit
import Verif.AbiInitLemmas
import Verif.AbiInitProps
import Verif.AbiLeaf
import Verif.AbiPack
import Verif.AbiProps
import Verif.AbiRoom
import Verif.AbiRound
import Verif.AbiSame
import Verif.AbiSameRead
import Verif.AbiStream
import Verif.AbiSucceeds
import Verif.AbiText
import Verif.AbiTextFull
import Verif.AbiTextLemmas
import Verif.AbiTextProps
import Verif.AbiTotal
import Verif.AbiUtf8
import Verif.AbiValue
import Verif.Account
import Verif.AccountProps
import Verif.Addr
import Verif.AddrText
import Verif.Arbitrary
import Verif.ArbitraryActions
import Verif.ArbitraryAddr
import Verif.ArbitraryComplete
import Verif.ArbitraryLemmas
import Verif.ArbitraryMoney
import Verif.ArbitraryProps
import Verif.ArrayVec
import Verif.ArrayVecProps
import Verif.AugFind
import Verif.AugFindProps
import Verif.AugRoot
import Verif.AugRootProps
import Verif.Basic
import Verif.BigNum
import Verif.BigNumProps
import Verif.BitText
import Verif.Block
import Verif.BlockProps
import Verif.BlockSigs
import Verif.BlockSigsProps
import Verif.BocDe
import Verif.BocDeLemmas
import Verif.BocDeProps
import Verif.BocProps
import Verif.BocRepr
import Verif.BocReprProps
import Verif.BocReuse
import Verif.BocReuseProps
import Verif.BocRound
import Verif.BocRound2
import Verif.BocSer
import Verif.BocSerLemmas
import Verif.Builder
import Verif.BuilderLemmas
import Verif.BuilderProps
import Verif.Caps
import Verif.CapsLemmas
import Verif.CapsProps
import Verif.Cell
import Verif.CellBuilder
import Verif.CellBuilderLemmas
import Verif.CellDrop
import Verif.CellDropLemmas
import Verif.CellDropLoops
import Verif.CellDropPar
import Verif.CellDropParLemmas
import Verif.CellDropParProps
import Verif.CellDropParSteps
import Verif.CellDropProps
import Verif.CellInj
import Verif.CellLemmas
import Verif.CellLemmas2
import Verif.CellProps
import Verif.CellText
import Verif.CellTextProps
import Verif.Codec
import Verif.CodecPrims
import Verif.CodecRel
import Verif.Compare
import Verif.CompareProps
import Verif.ConfigDict
import Verif.ConfigDictProps
import Verif.ConfigParams
import Verif.ConfigParamsProps
import Verif.Crc
import Verif.Currency
import Verif.CurrencyMore
import Verif.CurrencyProps
import Verif.CurrencyThms
import Verif.Derive
import Verif.DeriveLemmas
import Verif.DeriveProps
import Verif.Dict
import Verif.DictAtomicProps
import Verif.DictAug
import Verif.DictAugBulk
import Verif.DictAugModify
import Verif.DictAugOps
import Verif.DictAugProps
import Verif.DictAugTypes
import Verif.DictBuild
import Verif.DictBuildLemmas
import Verif.DictBuildProps
import Verif.DictBuildTrie
import Verif.DictDefault
import Verif.DictFind
import Verif.DictFindLemmas
import Verif.DictFindProps
import Verif.DictIter
import Verif.DictIterLemmas
import Verif.DictIterProps
import Verif.DictKeys
import Verif.DictLabel
import Verif.DictLemmas
import Verif.DictMergeProps
import Verif.DictModProps
import Verif.DictModSeek
import Verif.DictModTrie
import Verif.DictModWalk
import Verif.DictOrder
import Verif.DictPieces
import Verif.DictProps
import Verif.DictSplit
import Verif.DictSplitLemmas
import Verif.DictSplitProps
import Verif.DictTrie
import Verif.DictUnionProps
import Verif.DictValuesLemmas
import Verif.Envelope
import Verif.EnvelopeAccess
import Verif.EnvelopeHop
import Verif.EnvelopeProps
import Verif.ExactSize
import Verif.ExactSizeLemmas
import Verif.ExactSizeProps
import Verif.Fees
import Verif.FeesProps
import Verif.Forms
import Verif.FormsBox
import Verif.FormsDict
import Verif.FormsLemmas
import Verif.FormsMore
import Verif.FormsProps
import Verif.Level
import Verif.LevelProps
import Verif.LibraryCell
import Verif.Mem
import Verif.Merkle
import Verif.MerkleApply
import Verif.MerkleCodec
import Verif.MerkleDfs
import Verif.MerkleFill
import Verif.MerkleImage
import Verif.MerkleLemmas
import Verif.MerklePar
import Verif.MerkleParLemmas
import Verif.MerkleParProps
import Verif.MerkleParSteps
import Verif.MerkleParUpdate
import Verif.MerkleParUpdateProps
import Verif.MerkleProps
import Verif.MerkleRemoved
import Verif.MerkleRemovedProps
import Verif.MerkleSpec
import Verif.MerkleUpdate
import Verif.MerkleUpdateProps
import Verif.Message
import Verif.MessageLemmas
import Verif.MessageProps
import Verif.Num
import Verif.NumProps
import Verif.OutActions
import Verif.OutActionsProps
import Verif.Pruned
import Verif.PrunedProps
import Verif.RefsIter
import Verif.RefsIterProps
import Verif.Shard
import Verif.ShardDescr
import Verif.ShardProps
import Verif.ShardState
import Verif.ShardStateProps
import Verif.ShardTree
import Verif.ShardTreeBuild
import Verif.ShardTreeGet
import Verif.ShardTreeIter
import Verif.ShardTreeLemmas
import Verif.ShardTreeProps
import Verif.Slice
import Verif.SliceLemmas
import Verif.SliceLemmas2
import Verif.SliceProps
import Verif.SliceScan
import Verif.SliceScan2
import Verif.StorageStat
import Verif.Text
import Verif.TextProps
import Verif.Tlb
import Verif.TlbDep
import Verif.TlbMore
import Verif.Transaction
import Verif.TransactionProps
import Verif.TychoBlock
import Verif.TychoBlockProps
import Verif.TychoParams
import Verif.TychoParamsProps
import Verif.TypedDict
import Verif.TypedDictMore
import Verif.TypedDictProps
import Verif.TypedUnion
import Verif.Usage
import Verif.UsageProps
import Verif.UsageReplay
import Verif.UsageSync
import Verif.UsageSyncLemmas
import Verif.UsageSyncProps
import Verif.UsageTouch
import Verif.V248
import Verif.V248Div
import Verif.V248Knuth
import Verif.V248Mul
import Verif.V248Props
import Verif.V248Text
import Verif.Virtual
import Verif.VirtualProps
import Verif.VsetCodec
import Verif.VsetCodecLemmas
import Verif.VsetCodecProps
import Verif.VsetLemmas
import Verif.VsetProps
import Verif.VsetSubset
