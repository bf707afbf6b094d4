import Verif.Props.Codec
import Verif.Props.Slice
import Verif.Props.Key
import Verif.Props.SortedMap
import Verif.Props.SortedIter
import Verif.Props.HashMap
import Verif.Props.HashLoad
import Verif.Props.Murmur
import Verif.Props.Hashable
import Verif.Props.Mph
import Verif.Props.MphCodec
import Verif.Props.Conv
import Verif.Props.Consensus
import Verif.Props.Base58
import Verif.Props.Rand
import Verif.Props.KeyFile
import Verif.Props.Ecdsa
import Verif.Props.Scheme
import Verif.Props.Value
import Verif.Props.ValueHeap
import Verif.Props.Record
import Verif.Props.RecordFormat
import Verif.Props.ValueCopy
import Verif.Props.ValueKind
import Verif.Props.Decoded
import Verif.Props.CopyExact
import Verif.Props.Reencode
import Verif.Props.CopyConstruct
import Verif.Props.RecordHeap
import Verif.Props.ValueObj
import Verif.Props.ObjCopy
import Verif.Props.ObjEdit
import Verif.Props.ObjEst
import Verif.Props.EstSize
import Verif.Props.Trie
import Verif.Props.SSTable
import Verif.Props.Burst
import Verif.Props.Comparable
import Verif.Props.Sharing
import Verif.Props.SortedHeap
import Verif.Props.HashPanic
import Verif.Props.EcdsaSign
import Verif.Props.Pkeygen
import Verif.Props.HashCustom
import Verif.Props.SortedIterSafe
import Verif.Props.MurmurSeed
import Verif.Props.KeyMaps
import Verif.Props.SSTableFile
import Verif.Props.Memory
import Verif.Props.AvlCost
import Verif.Model.TrieHeap
import Verif.Spec.TrieHeap
import Verif.Props.TrieNodes
import Verif.Model.TrieWalk
import Verif.Spec.TrieWalk
import Verif.Props.TrieWalk
import Verif.Props.TrieRange
import Verif.Model.TrieStart
import Verif.Spec.TrieStart
import Verif.Props.TrieStart
import Verif.Props.TrieBoth
import Verif.Model.ValueCost
import Verif.Spec.ValueCost
import Verif.Props.ValueCost
import Verif.Model.Print
import Verif.Spec.Print
import Verif.Props.Print
import Verif.Model.SchemeObj
import Verif.Spec.SchemeObj
import Verif.Props.SchemeObj
import Verif.Model.HashObj
import Verif.Spec.HashObj
import Verif.Props.HashObj
import Verif.Model.Logger
import Verif.Spec.Logger
import Verif.Props.Logger
import Verif.Model.MappedObj
import Verif.Spec.MappedObj
import Verif.Props.MappedObj
import Verif.Model.KeyShare
import Verif.Spec.KeyShare
import Verif.Props.KeyShare
import Verif.Model.MphShare
import Verif.Spec.MphShare
import Verif.Props.MphShare
import Verif.Model.EncObj
import Verif.Spec.EncObj
import Verif.Props.EncObj
import Verif.Model.ValueMem
import Verif.Spec.ValueMem
import Verif.Lemmas.ValueMem
import Verif.Props.ValueMem
import Verif.Model.RecTime
import Verif.Spec.RecTime
import Verif.Props.RecTime
import Verif.Model.MphSeed
import Verif.Spec.MphSeed
import Verif.Props.MphSeed
import Verif.Model.ParRead
import Verif.Spec.ParRead
import Verif.Props.ParRead
import Verif.Props.DecodeOnce
import Verif.Spec.ObjOrder
import Verif.Props.ObjMaps
import Verif.Spec.KeyWire
import Verif.Props.KeyWire
import Verif.Props.NilKeys
import Verif.Model.GoVal
import Verif.Props.GoVal
import Verif.Model.ParEncode
import Verif.Spec.ParEncode
import Verif.Props.ParEncode
import Verif.Model.NilKey
import Verif.Spec.NilKey
import Verif.Props.NilKey
import Verif.Model.NilTime
import Verif.Props.NilTime
import Verif.Props.Base58Len
import Verif.Props.NumOrder
import Verif.Spec.Log
import Verif.Props.Log
import Verif.Spec.Distinct
import Verif.Props.Distinct
import Verif.Model.NilHashKey
import Verif.Spec.NilHashKey
import Verif.Props.NilHashKey
import Verif.Spec.MphFit
import Verif.Props.MphFit
import Verif.Lemmas.MurmurParity
import Verif.Lemmas.MurmurTail
import Verif.Props.MphShort
import Verif.Model.AvlIterHalf
import Verif.Lemmas.AvlIterHalf
import Verif.Spec.RangePanic
import Verif.Lemmas.RangePanic
import Verif.Props.RangePanic
import Verif.Model.NilBound
import Verif.Props.NilBound
import Verif.Lemmas.RangeEnd
import Verif.Props.RangeEnd
import Verif.Props.LogTables
import Verif.Props.KeyOrder
import Verif.Props.HashCost
import Verif.Model.TrieCost
import Verif.Props.MphSize
import Verif.Props.TrieCost
import Verif.Props.ParMaps
import Verif.Props.RandDist
import Verif.Model.PkeygenMain
import Verif.Props.PkeygenMain
import Verif.Model.NodePaths
import Verif.Props.NodePaths
import Verif.Props.PrintHex
import Verif.Model.KeyExist
import Verif.Props.KeyExist
import Verif.Model.Magic
import Verif.Props.Magic
import Verif.Props.KeyPlace
import Verif.Props.PkeygenAlias
import Verif.Props.PkeygenLinks
import Verif.Props.PrefixKeys
import Verif.Props.PrefixKids
import Verif.Props.MphSaved
import Verif.Model.LoadedNodes
import Verif.Spec.LoadedNodes
import Verif.Props.LoadedNodes
import Verif.Model.HashHeap
import Verif.Spec.HashHeap
import Verif.Lemmas.HashHeap
import Verif.Props.HashHeap
import Verif.Spec.BitFlip
import Verif.Lemmas.CrcPeriod
import Verif.Props.BitFlip
import Verif.Props.Typing
import Verif.Props.NilPrefix
