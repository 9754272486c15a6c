import Verif.Bytes
import Verif.OMap
import Verif.Keyed
import Verif.Stream
import Verif.Sim
import Verif.DB2
import Verif.Spec.Vault2
import Verif.Spec.Vault2Facts
import Verif.DB2Proofs
import Verif.DB2Rows
import Verif.Props.DB2
import Verif.Props.DB2Rows
import Verif.DB3
import Verif.Spec.Oprf3
import Verif.Spec.Oprf3Facts
import Verif.DB3Rows
import Verif.Props.DB3
import Verif.DB4
import Verif.Spec.Vault4
import Verif.Spec.Vault4Facts
import Verif.DB4Rows
import Verif.DB4Load
import Verif.Session4
import Verif.Props.DB4
import Verif.DB5
import Verif.DB5Rows
import Verif.Props.DB5
import Verif.RowSize
import Verif.Props.RowSize
import Verif.Timeout
import Verif.Props.Timeout
import Verif.GroupClock
import Verif.Props.GroupClock
import Verif.Codec
import Verif.CodecFacts
import Verif.Props.Codec
import Verif.Minimums
import Verif.Props.Minimums
import Verif.Raft.Membership
import Verif.Props.Membership
import Verif.Config
import Verif.Props.Config
import Verif.Raft.Log
import Verif.Props.RaftLog
import Verif.Raft.Node
import Verif.Raft.Atom
import Verif.Raft.Shape
import Verif.Raft.Walk
import Verif.Raft.Walk2
import Verif.Raft.Chain
import Verif.Raft.Local
import Verif.Raft.Ops
import Verif.Raft.Solo
import Verif.Raft.Toy
import Verif.Raft.Mems
import Verif.Raft.Group
import Verif.Raft.GroupStep
import Verif.Raft.Cluster
import Verif.Raft.Agree
import Verif.Raft.Play
import Verif.Props.RaftNode
import Verif.Props.RaftGroup
import Verif.Noise
import Verif.Props.Noise
import Verif.Socket
import Verif.Props.Socket
import Verif.Merkle
import Verif.MerkleShape
import Verif.MerkleHash
import Verif.MerkleDestroy
import Verif.MerkleGrow
import Verif.Spec.Leaves
import Verif.MerkleInv
import Verif.MerkleVerify
import Verif.MerkleEnd
import Verif.Props.Merkle
import Verif.Core.Apply
import Verif.Spec.Fate
import Verif.Core.LogTx
import Verif.Props.LogTx
import Verif.Spec.Serial
import Verif.Core.Grid
import Verif.Core.Play
import Verif.Props.Grid
import Verif.Core.Members
import Verif.Core.TownPlay
import Verif.Props.Rejoin
import Verif.Core.E2E
import Verif.Props.E2E
import Verif.Core.Regroup
import Verif.Props.Regroup
import Verif.Raft.Guarded
import Verif.Props.RaftLeaves
import Verif.Raft.Hale
import Verif.Raft.Total
import Verif.Raft.Talk
import Verif.Raft.Settled
import Verif.Props.RaftMessages
import Verif.Peers
import Verif.PeersFacts
import Verif.PeersRun
import Verif.Spec.Attested
import Verif.Props.Peers
import Verif.Props.PeersTotal
import Verif.Props.PeerSession
import Verif.Clients
import Verif.Spec.Sessions
import Verif.ClientsFacts
import Verif.ClientsRun
import Verif.ClientsLife
import Verif.Props.Clients
import Verif.Core.Replicate
import Verif.Core.ReplicateFacts
import Verif.Core.ReplicateRun
import Verif.Core.ReplicateDb
import Verif.Props.Replicate
import Verif.Spec.Base64
import Verif.Attest.Lib
import Verif.Attest.Facts
import Verif.Attest.Tpm2
import Verif.Spec.Quote
import Verif.Attest.Tpm2Facts
import Verif.Props.Tpm2
import Verif.Attest.Sev
import Verif.Spec.CertTable
import Verif.Attest.SevFacts
import Verif.Props.Sev
import Verif.Attest.Tpm2Snp
import Verif.Spec.Snp
import Verif.Attest.Tpm2SnpFacts
import Verif.Props.Tpm2Snp
import Verif.Spec.Cbor
import Verif.Spec.Nitro
import Verif.Attest.Nitro
import Verif.Attest.NitroFacts
import Verif.Attest.NitroSig
import Verif.Props.Nitro
import Verif.Attest.Sgx
import Verif.Spec.Sgx
import Verif.Attest.SgxFacts
import Verif.Props.Sgx
import Verif.OnTree.Model
import Verif.Spec.OnTree
import Verif.OnTree.Facts
import Verif.OnTree.Refine
import Verif.OnTree.Faces
import Verif.Props.OnTree
import Verif.Spec.Locks
import Verif.Locks.Lang
import Verif.Locks.Order
import Verif.Locks.Code
import Verif.Locks.Ranks
import Verif.Props.Locks
import Verif.Core.Host
import Verif.Core.HostFacts
import Verif.Core.HostReplies
import Verif.Core.HostJoin
import Verif.Props.Host
import Verif.Env.Random
import Verif.Env.Ticks
import Verif.Env.Start
import Verif.Env.Serve
import Verif.Props.Random
import Verif.Props.Ticks
import Verif.Props.Start
import Verif.Props.Serve
import Verif.Raft.Room
import Verif.Props.Room
import Verif.Wipe
import Verif.WipeLemmas
import Verif.WipeRuns
import Verif.Props.Wipe
import Verif.Raft.Among
import Verif.Props.Progress
import Verif.Raft.Terms
import Verif.Props.Matching
import Verif.Raft.Elect
import Verif.Raft.Elect2
import Verif.Props.Elected
import Verif.Raft.Sync
import Verif.Raft.Sync2
import Verif.Raft.Sync3
import Verif.Raft.Sync4
import Verif.Raft.Sync5
import Verif.Raft.Sync6
import Verif.Props.Commits
import Verif.Raft.Moved
import Verif.Raft.Complete
import Verif.Props.Complete
import Verif.Attest.Make
import Verif.Props.Evidence
import Verif.Raft.Request
import Verif.Core.Told
import Verif.Props.Linear
import Verif.Raft.Crown
import Verif.Props.Order
import Verif.Queue
import Verif.QueueInv
import Verif.Props.Queue
import Verif.Wake
import Verif.WakeInv
import Verif.Props.Wake
import Verif.Props.Family
import Verif.Props.Tamper
import Verif.DB2View
import Verif.Props.Secret
import Verif.Props.Shares
import Verif.Props.Fatal
import Verif.Props.Forget
import Verif.Props.Servers
import Verif.Props.Keys
import Verif.Props.Data5
import Verif.Props.Alone
import Verif.Props.Status
import Verif.Props.TmpDir
import Verif.Props.Wire
import Verif.Props.Requests
import Verif.Props.Replies
import Verif.Props.PeerWire
import Verif.Props.Handshake
import Verif.Props.PeerData
import Verif.Props.PushWire
import Verif.Props.PushRun
import Verif.Props.RandomUse
import Verif.Raft.Hand
import Verif.Props.Hand
import Verif.Core.Relinquish
import Verif.Props.Relinquish
import Verif.Props.HostDelete
import Verif.Props.PushEnds
import Verif.Core.Write
import Verif.Props.Write
import Verif.Core.GroupRequest
import Verif.Props.GroupRequest
import Verif.Audit
