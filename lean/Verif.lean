import Verif.Abi.Contract
import Verif.Abi.Copy
import Verif.Abi.Fields
import Verif.Abi.Model
import Verif.Abi.Names
import Verif.Abi.NewType
import Verif.Abi.Pack
import Verif.Abi.PackMem
import Verif.Abi.Same
import Verif.Abi.Selector
import Verif.Abi.Set
import Verif.Abi.Spec
import Verif.Abi.Topics
import Verif.Abi.Unpack
import Verif.Abi.UnpackMem
import Verif.Abi.Wrappers
import Verif.Base
import Verif.BigMath.Balances
import Verif.BigMath.Model
import Verif.BigMath.Props
import Verif.BigMath.Rat64
import Verif.BigMath.RatLarge
import Verif.ByteOps.Mem
import Verif.ByteOps.Memory
import Verif.ByteOps.Model
import Verif.ByteOps.Props
import Verif.Conc.Lock
import Verif.Conc.Mutex
import Verif.Conc.Order
import Verif.Conc.Peek
import Verif.Conc.RW
import Verif.DB.CachedConc
import Verif.DB.MemConc
import Verif.DB.Model
import Verif.DB.Props
import Verif.DB.Slices
import Verif.HTree.Audited
import Verif.HTree.Chop
import Verif.HTree.ChopFail
import Verif.HTree.Claims
import Verif.HTree.Damaged
import Verif.HTree.Faulty
import Verif.HTree.Forged
import Verif.HTree.Has
import Verif.HTree.Height
import Verif.HTree.Merge
import Verif.HTree.MergeFail
import Verif.HTree.MergeLong
import Verif.HTree.Model
import Verif.HTree.NodeBytes
import Verif.HTree.Ops
import Verif.HTree.Props
import Verif.HTree.Rep
import Verif.HTree.Restore
import Verif.HTree.Revert
import Verif.HTree.RevertConc
import Verif.HTree.RevertMore
import Verif.HTree.Shared
import Verif.HTree.Spec
import Verif.HTree.Store
import Verif.HTree.Toy
import Verif.Hex.Address
import Verif.Hex.Checksum
import Verif.Hex.Model
import Verif.Hex.Print
import Verif.Hex.Props
import Verif.Hex.Shown
import Verif.Hex.Sign
import Verif.Hex.Text
import Verif.Lru.Map
import Verif.Memory.Clone
import Verif.Memory.Hashes
import Verif.Memory.Opening
import Verif.Memory.Values
import Verif.Merkle.Lemmas
import Verif.Merkle.Lemmas2
import Verif.Merkle.Model
import Verif.Merkle.Objects
import Verif.Merkle.Props
import Verif.Merkle.Roots
import Verif.Merkle.Spec
import Verif.Merkle.Texts
import Verif.Nodes.Identity
import Verif.Nodes.Infos
import Verif.Nodes.Model
import Verif.Nodes.Props
import Verif.Nodes.SetConc
import Verif.Nodes.SetProps
import Verif.Nodes.Small
import Verif.Nodes.Texts
import Verif.Num.LastBlock
import Verif.Num.LastBlockCopy
import Verif.Num.Lemmas
import Verif.Num.Model
import Verif.Num.Printing
import Verif.Num.Props
import Verif.Pool.Keys
import Verif.Pool.Model
import Verif.Pool.Props
import Verif.Rlp.Buffers
import Verif.Rlp.Cache
import Verif.Rlp.Cursor
import Verif.Rlp.Decode
import Verif.Rlp.Descr
import Verif.Rlp.Enc
import Verif.Rlp.ErrCtx
import Verif.Rlp.Gen
import Verif.Rlp.GenFile
import Verif.Rlp.Model
import Verif.Rlp.Num
import Verif.Rlp.Own
import Verif.Rlp.Raw
import Verif.Rlp.Spec
import Verif.Rlp.Stream
import Verif.Rlp.Tags
import Verif.Rlp.Typed
import Verif.Rlp.TypedDec
import Verif.Rlp.TypedEnc
import Verif.Rlp.TypedSpec
import Verif.Rlp.TypedThms
import Verif.Service.Copies
import Verif.Service.Logging
import Verif.Service.Model
import Verif.Service.Props
import Verif.Shard.Model
import Verif.Shard.Props
import Verif.Sorted
import Verif.Trie.Binding
import Verif.Trie.Codec
import Verif.Trie.CodecProps
import Verif.Trie.Combined
import Verif.Trie.CombinedConc
import Verif.Trie.CombinedIter
import Verif.Trie.CombinedStore
import Verif.Trie.CommitConc
import Verif.Trie.Copy
import Verif.Trie.Damaged
import Verif.Trie.Dump
import Verif.Trie.Existence
import Verif.Trie.Faulty
import Verif.Trie.Hash
import Verif.Trie.HashLemmas
import Verif.Trie.HashProps
import Verif.Trie.Headers
import Verif.Trie.History
import Verif.Trie.Iterator
import Verif.Trie.IteratorBack
import Verif.Trie.IteratorLemmas
import Verif.Trie.IteratorProps
import Verif.Trie.Json
import Verif.Trie.Lemmas
import Verif.Trie.LightClient
import Verif.Trie.Model
import Verif.Trie.PrefixKey
import Verif.Trie.PrefixMem
import Verif.Trie.Print
import Verif.Trie.ProofInfo
import Verif.Trie.ProofText
import Verif.Trie.ProofWorld
import Verif.Trie.Props
import Verif.Trie.PutterReports
import Verif.Trie.Revert
import Verif.Trie.RevertConc
import Verif.Trie.RevertProps
import Verif.Trie.Shared
import Verif.Trie.Spec
import Verif.Trie.Store
import Verif.Trie.StoreLemmas
import Verif.Trie.StoreProof
import Verif.Trie.StoreProps
import Verif.Trie.StoreSave
import Verif.Trie.StoreSteps
import Verif.Trie.Sync
