import Verif.Base.Bytes
import Verif.Model.Bloom
import Verif.Model.BloomLemmas
import Verif.Model.BloomSalts
import Verif.Props.Bloom
import Verif.Model.WordTricks
import Verif.Model.WordLemmas
import Verif.Props.Word
import Verif.Model.Cuckoo
import Verif.Model.LiteMurmur
import Verif.Model.CuckooLemmas
import Verif.Props.Cuckoo
import Verif.Model.BigInt
import Verif.Props.BigInt
import Verif.Model.Serialization
import Verif.Props.Serialization
import Verif.Model.Channel
import Verif.Props.Channel
import Verif.Model.Block
import Verif.Props.Block
import Verif.Model.Transpose
import Verif.Props.Transpose
import Verif.Model.Aes
import Verif.Model.AesLemmas
import Verif.Props.Aes
import Verif.Model.Prg
import Verif.Props.Prg
import Verif.Model.FastDiv
import Verif.Props.FastDiv
import Verif.Model.Group
import Verif.Model.Dlog
import Verif.Props.Dlog
import Verif.Model.Pke
import Verif.Props.Pke
import Verif.Model.Sigma
import Verif.Props.Sigma
import Verif.Model.Poly
import Verif.Props.Poly
import Verif.Model.EncRelation
import Verif.Model.EncRelationLemmas
import Verif.Props.EncRelation
import Verif.Props.EncRelationSound
import Verif.Model.RingSig
import Verif.Props.RingSig
import Verif.Model.InnerProduct
import Verif.Model.InnerProductLemmas
import Verif.Props.InnerProduct
import Verif.Model.Bullet
import Verif.Model.BulletLemmas
import Verif.Model.BulletSpec
import Verif.Model.BulletProve
import Verif.Props.Bullet
import Verif.Model.BulletInt
import Verif.Model.Gadget
import Verif.Props.Gadget
import Verif.Model.Adcp
import Verif.Props.Adcp
import Verif.Props.AdcpPolicy
import Verif.Model.AdcpMany
import Verif.Props.AdcpMany
import Verif.Model.AdcpFiles
import Verif.Props.AdcpFiles
import Verif.Model.Proto
import Verif.Props.Proto
import Verif.Model.NaorPinkas
import Verif.Props.NaorPinkas
import Verif.Model.OtExt
import Verif.Model.OtExtLemmas
import Verif.Props.OtExt
import Verif.Model.DdhMpc
import Verif.Props.DdhMpc
import Verif.Model.Hash
import Verif.Props.Hash
import Verif.Model.HashToCurve
import Verif.Props.HashToCurve
import Verif.Model.CwPrf
import Verif.Props.CwPrf
import Verif.Model.Pso
import Verif.Props.Pso
import Verif.Model.OteOprf
import Verif.Model.OteOprfLemmas
import Verif.Props.OteOprf
import Verif.Model.Gf128
import Verif.Model.Gf128Field
import Verif.Props.Gf128
import Verif.Model.MatInv
import Verif.Model.MatInvLemmas
import Verif.Props.MatInv
import Verif.Model.Murmur
import Verif.Props.Murmur
import Verif.Model.OkvsRow
import Verif.Props.OkvsRow
import Verif.Model.OkvsLists
import Verif.Model.Okvs
import Verif.Model.OkvsTri
import Verif.Model.OkvsSolve
import Verif.Model.OkvsBackfill
import Verif.Model.OkvsEncode
import Verif.Props.Okvs
import Verif.Model.Baxos
import Verif.Model.BaxosSizes
import Verif.Props.Baxos
import Verif.Model.Ggm
import Verif.Model.GgmLemmas
import Verif.Model.ExConv
import Verif.Model.ExConvLemmas
import Verif.Model.Vole
import Verif.Model.VoleLemmas
import Verif.Model.ProtoNever
import Verif.Props.Vole
import Verif.Model.VoleOprf
import Verif.Props.VoleOprf
import Verif.Model.OkvsNat
import Verif.Props.BaxosSolves
import Verif.Model.RrPke
import Verif.Model.RrPkeWitness
import Verif.Props.RrPke
import Verif.Props.RrPkeMore
import Verif.Props.FiatShamir
import Verif.Model.BulletHide
import Verif.Props.BulletHide
import Verif.Props.AdcpBind
import Verif.Model.IpExtract
import Verif.Model.IpPaths
import Verif.Model.BulletExtract
import Verif.Props.BulletSound
import Verif.Props.GadgetSound
import Verif.Props.AdcpSound
import Verif.Props.BulletBind
import Verif.Props.BulletForm
import Verif.Model.ParamFiles
import Verif.Props.ParamFiles
import Verif.Model.Omp
import Verif.Props.Omp
import Verif.Props.OtePrivacy
import Verif.Props.PsoPrivacy
import Verif.Props.VolePrivacy
import Verif.Model.AdcpLedger
import Verif.Props.AdcpLedger
import Verif.Props.IdPrivacy
import Verif.Model.P256Primes
import Verif.Model.P256
import Verif.Model.P256Codec
import Verif.Props.P256
import Verif.Model.OkvsAgain
import Verif.Model.OkvsFile
import Verif.Props.OkvsAgain
import Verif.Props.OkvsFile
import Verif.Model.Montgomery
import Verif.Model.X25519Primes
import Verif.Model.X25519
import Verif.Model.X25519Order
import Verif.Model.X25519Small
import Verif.Props.X25519
import Verif.Model.OkvsRekey
import Verif.Props.OkvsRekey
import Verif.Model.OkvsSizes
import Verif.Props.OkvsSizes
import Verif.Model.OkvsUniform
import Verif.Props.OkvsUniform
import Verif.Model.Murmur64
import Verif.Props.Murmur64
import Verif.Model.P256Compressed
import Verif.Props.P256Compressed
import Verif.Props.NaorPinkasSender
import Verif.Props.PsoSumPrivacy
import Verif.Model.BloomOrder
import Verif.Props.RpmtPrivacy
import Verif.Model.LiteMurmurMerge
import Verif.Model.LiteMurmurColl
import Verif.Props.FilterFalsePositives
import Verif.Props.PkeHiding
import Verif.Props.PsiPrivacy
import Verif.Props.PeqtPrivacy
import Verif.Props.DdhPrf
import Verif.Props.OprfPrivacy
import Verif.Model.DlogFiles
import Verif.Props.DlogFiles
import Verif.Model.BigIntRandom
import Verif.Props.BigIntRandom
import Verif.Props.EcVector
import Verif.Model.Murmur3
import Verif.Props.Murmur3
import Verif.Props.PkeMany
import Verif.Props.OteWidth
import Verif.Props.PsiWidth
import Verif.Model.BloomCount
import Verif.Props.BloomRate
import Verif.Props.RpmtDdh
import Verif.Model.CryptoFiles
import Verif.Props.CryptoFiles
import Verif.Model.CuckooRange
import Verif.Props.CuckooRange
import Verif.Model.BulletSim
import Verif.Props.BulletSim
import Verif.Model.Oracle
import Verif.Model.SigmaSim
import Verif.Model.AdcpSim
import Verif.Props.AdcpHide
import Verif.Model.AdcpManySim
import Verif.Props.AdcpManyHide
import Verif.Props.RingAnon
import Verif.Props.SchnorrForge
import Verif.Props.NizkForge
import Verif.Props.AdcpForge
import Verif.Props.AdcpAudit
import Verif.Model.AdcpAuditSim
import Verif.Props.AdcpAuditHide
import Verif.Props.GadgetHide
import Verif.Props.RpmtRate
import Verif.Props.GadgetForge
import Verif.Model.AtRest
import Verif.Props.AtRest
import Verif.Model.FastKey
import Verif.Props.FastKey
import Verif.Model.BloomMany
import Verif.Props.BloomMany
import Verif.Props.BaxosUniform
import Verif.Model.Ec25519
import Verif.Props.Ec25519
import Verif.Model.HashWrap
import Verif.Props.HashWrap
