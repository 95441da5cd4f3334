import Verif.Model.Basic
import Verif.Model.BMap
import Verif.Model.Codec
import Verif.Model.EdDSA
import Verif.Model.Hash
import Verif.Model.Poly
import Verif.Model.Curve
import Verif.Model.Nizk
import Verif.Model.Schnorr
import Verif.Model.Pvss
import Verif.Model.Aggregator
import Verif.Model.Base64
import Verif.Model.Laws
import Verif.Spec
import Verif.Toy
import Verif.Lemmas.Basic
import Verif.Lemmas.Interp
import Verif.Lemmas.Poly
import Verif.Lemmas.Count
import Verif.Lemmas.Degree
import Verif.Props.Interp
import Verif.Props.Degree
import Verif.Lemmas.BMap
import Verif.Lemmas.Codec
import Verif.Lemmas.Hash
import Verif.Props.Nizk
import Verif.Props.Schnorr
import Verif.Props.Secrecy
import Verif.Lemmas.Canonical
import Verif.Lemmas.Base64
import Verif.Props.Hash
import Verif.Props.Codec
import Verif.Props.Text
import Verif.Props.EdDSA
import Verif.Props.Field
import Verif.Lemmas.Pairing
import Verif.Lemmas.Deal
import Verif.Props.Deal
import Verif.Props.Privacy
import Verif.Lemmas.Verify
import Verif.Lemmas.Aggregate
import Verif.Lemmas.Honest
import Verif.Lemmas.Halts
import Verif.Props.Verify
import Verif.Props.Aggregate
import Verif.Lemmas.History
import Verif.Props.History
import Verif.Props.Weights
import Verif.Model.Size
import Verif.Props.Keys
import Verif.Props.Wire
import Verif.Props.Outcome
import Verif.Props.Share
import Verif.Props.Binding
import Verif.Props.Converge
import Verif.Props.Reconstruct
import Verif.Props.Adversary
import Verif.Props.Malformed
import Verif.Props.Network
import Verif.Props.Deploy
import Verif.Props.Bls
import Verif.Props.BlsWire
import Verif.Props.Dalek
import Verif.Props.Ed25519
import Verif.Props.Chance
import Verif.Model.ErrorText
import Verif.Props.Truth
import Verif.Props.Commit
import Verif.Props.Oracle
import Verif.Props.Authentic
import Verif.Props.Uniform
import Verif.Lemmas.Fork
import Verif.Props.Knowledge
import Verif.Props.Forgery
import Verif.Model.Tests
import Verif.Props.Tests
import Verif.Props.TestsPvss
import Verif.Props.TestsNode
import Verif.Lemmas.BlsOrder
import Verif.Model.ArkHash
import Verif.Lemmas.ArkHash
import Verif.Props.HashGroup
import Verif.Model.ArkRand
import Verif.Lemmas.Sampler
import Verif.Lemmas.Uniform
import Verif.Props.Rand
import Verif.Props.Odds
import Verif.Props.Work
import Verif.Props.Bounded
import Verif.Props.Batch
import Verif.Model.Default
import Verif.Props.Default
import Verif.Props.EdForge
import Verif.Lemmas.Cma
import Verif.Props.EdCma
import Verif.Model.Derive
import Verif.Props.Derive
import Verif.Props.Points
import Verif.Props.Siege
import Verif.Props.Guard
import Verif.Model.Primitives
import Verif.Props.Primitives
import Verif.Props.Epoch
import Verif.Props.EdVector
import Verif.Props.EdGroup
import Verif.Props.Template
import Verif.Props.MalformedAgg
import Verif.Props.Bind
import Verif.Props.Sponge
import Verif.Props.Tested
import Verif.Props.AnyPairing
import Verif.Props.Predetermined
import Verif.Props.Session
import Verif.Props.Equality
import Verif.Props.Strict
import Verif.Props.Cofactor
import Verif.Props.Repaired
import Verif.Model.ArkProj
import Verif.Lemmas.ArkProj
import Verif.Lemmas.ArkMsm
import Verif.Props.Projective
import Verif.Props.Unpredictable
import Verif.Model.ArkFp
import Verif.Lemmas.ArkFp
import Verif.Props.Montgomery
import Verif.Lemmas.ArkMap
import Verif.Lemmas.ArkLimb
import Verif.Props.Limbs
import Verif.Model.EdProj
import Verif.Lemmas.EdProj
import Verif.Lemmas.EdRel
import Verif.Lemmas.EdDigits
import Verif.Lemmas.EdLoops
import Verif.Lemmas.EdCoord
import Verif.Props.EdCoord
import Verif.Model.EdLimb
import Verif.Lemmas.EdLimb
import Verif.Props.EdLimb
import Verif.Model.EdScalar
import Verif.Lemmas.EdScalar
import Verif.Props.EdScalar
import Verif.Props.TextFix
import Verif.Props.Clamp
