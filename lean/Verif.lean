import Verif.Lemmas.Bytes
import Verif.Props.AppendOpt
import Verif.Lemmas.Records
import Verif.Props.WordFile
import Verif.Props.HashFile
import Verif.Props.IntArrayArray
import Verif.Props.NumberedFolders
import Verif.Props.MapStore
import Verif.Props.CachedMapStore
import Verif.Props.Sequencer
import Verif.Props.MemBlocker
import Verif.Props.Hex
import Verif.Props.HashStores
import Verif.Props.ChainedHashStore
import Verif.Props.BinParams
import Verif.Props.Bins
import Verif.Props.BinFiles
import Verif.Props.HashStore3
import Verif.Props.Bulk3
import Verif.Props.Adaptive3
import Verif.Props.BinBlock
import Verif.Props.HashStream
import Verif.Props.BlockHolder
import Verif.Props.ChainStore
import Verif.Props.ChainStoreParallel
import Verif.Props.ShallowTree
import Verif.Props.NodeFormat
import Verif.Props.Chunk
import Verif.Props.ChunkFiles
import Verif.Props.IdFormats
import Verif.Props.TierTop
import Verif.Props.SingleTree
import Verif.Props.DonutForest
import Verif.Props.Cake
import Verif.Props.JsonBlock
import Verif.Props.Pipeline
import Verif.Props.Uniform
import Verif.Props.Run
import Verif.Props.RunLimit
import Verif.Props.RunIndex
import Verif.Props.HashTree
import Verif.Props.HashTreeFile
import Verif.Props.PreLoad
import Verif.Props.HashesChain
import Verif.Props.ChainedFiles
import Verif.Props.ReadOnlyWords
import Verif.Props.Difficulty
import Verif.Props.AddressFiles
import Verif.Props.Handles
import Verif.Props.ChainFactory
import Verif.Props.Reindex3
import Verif.Props.Killed
import Verif.Props.SensibleParams
import Verif.Props.CakeFiles
import Verif.Props.Creators
import Verif.Props.SelfTest3
import Verif.Props.Receivers
import Verif.Props.Abandon
import Verif.Props.WorkerPool
import Verif.Props.TinyChain
import Verif.Props.SingleTreeMemory
import Verif.Props.AddressSession
import Verif.Props.ChainFormat
import Verif.Props.SharedFile
import Verif.Props.FaultyFile
import Verif.Props.FaultyRun
import Verif.Props.KilledAppend
import Verif.Props.KilledSession
import Verif.Props.KilledSave
import Verif.Props.TornFile
import Verif.Props.OpenFiles
import Verif.Props.CakeHandles
import Verif.Props.CakeCascade
import Verif.Props.CakePartBake
import Verif.Props.CakeRoom
import Verif.Props.CakeLost
import Verif.Props.TopDisk
import Verif.Props.FaultyArrays
import Verif.Props.BinDisk
import Verif.Props.BinKill
import Verif.Props.CakeRepeats
import Verif.Props.FaultyReads
import Verif.Props.BinKillInside
import Verif.Props.BinKillBetween
import Verif.Props.BinDiskBins
import Verif.Props.BinKillSession
import Verif.Props.FaultyHashes
import Verif.Props.FaultyIndex
import Verif.Props.ParamFile
