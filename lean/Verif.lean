import Verif.Basic
import Verif.RCPrf.Props
import Verif.RCPrf.PropsS
import Verif.RCPrf.PropsE
import Verif.Average
import Verif.RCPrf.Hybrid
import Verif.RCPrf.SpecGame
import Verif.RCPrf.LemmasGame
import Verif.RCPrf.LemmasGameB
import Verif.RCPrf.PropsGame
import Verif.RCPrf.PropsAdaptive
import Verif.Prg.Props
import Verif.Mac.Props
import Verif.Key.Props
import Verif.Key.AtRest
import Verif.Key.Threads
import Verif.Key.PropsLife
import Verif.Cipher.Props
import Verif.Cipher.SpecGame
import Verif.Cipher.LemmasGame
import Verif.Cipher.PropsGame
import Verif.Cipher.PropsMany
import Verif.Wrapper.Props
import Verif.Wrapper.SpecGame
import Verif.Wrapper.LemmasGame
import Verif.Wrapper.PropsGame
import Verif.Wrapper.PropsMany
import Verif.Wrapper.Unavailable
import Verif.SetHash.Props
import Verif.Utils.Props
import Verif.Aez.Doubling
import Verif.Aez.AesRound
import Verif.Aez.ModelArm
import Verif.Aez.ModelArmAead
import Verif.Aez.ModelSetup
import Verif.Aez.PropsArmAead
import Verif.Aez.ArmEq
import Verif.Aez.ArmFun
import Verif.Aez.PropsArm
import Verif.Aez.ModelAead
import Verif.Aez.AeadCore
import Verif.Aez.PropsAead
import Verif.Tdp.PropsPool
import Verif.Tdp.PropsOpenSsl
import Verif.Io.PkSafe
import Verif.Io.ModelTrace
import Verif.Io.PropsTrace
import Verif.Ppke.Props
import Verif.Bignum.Props
import Verif.Bignum.PropsExp
import Verif.Bignum.PropsPrime
import Verif.Bignum.Tape
import Verif.Bignum.PropsTape
import Verif.Bignum.PropsGen
import Verif.Bignum.ModelText
import Verif.Bignum.Text
import Verif.Bignum.PropsText
import Verif.Bignum.PropsTextLong
import Verif.Bignum.ModelKernel
import Verif.Bignum.Kernel
import Verif.Bignum.PropsKernel
import Verif.Bignum.ModelWord
import Verif.Bignum.PropsWord
import Verif.Rsa.Model
import Verif.Rsa.Ops
import Verif.Rsa.Private
import Verif.Rsa.ModelTdp
import Verif.Rsa.Copy
import Verif.Rsa.Check
import Verif.Rsa.Public
import Verif.Rsa.Pool
import Verif.Rsa.ModelGen
import Verif.Rsa.Gen
import Verif.Rsa.First
import Verif.Rsa.Read
import Verif.Rsa.Props
import Verif.Rsa.PropsPool
import Verif.Rsa.ModelIo
import Verif.Rsa.Text
import Verif.Rsa.PropsIo
import Verif.Rsa.ModelThreads
import Verif.Rsa.Threads
import Verif.Rsa.PropsThreads
import Verif.Examples.Bignum
import Verif.Examples.Other
import Verif.Lib.Model
import Verif.Lib.Lemmas
import Verif.Lib.Props
import Verif.Lib.PropsFail
import Verif.Lib.PropsLocks
import Verif.Heap.Lang
import Verif.Heap.Inv
import Verif.Heap.Rules
import Verif.Heap.Scope
import Verif.Heap.Bignum
import Verif.Heap.BignumGood
import Verif.Heap.ExpGood
import Verif.Heap.Rsa
import Verif.Heap.RsaGood
import Verif.Heap.Objects
import Verif.Heap.Tdp
import Verif.Heap.TdpGood
import Verif.Heap.Client
import Verif.Heap.Props
import Verif.Heap.Witness
import Verif.Tdp.ModelFail
import Verif.Tdp.PropsFail
import Verif.Trace.Basic
import Verif.Aez.ModelTrace
import Verif.Aez.PropsTrace
import Verif.Bignum.ModelTrace
import Verif.Bignum.PropsTrace
import Verif.Rsa.PropsTrace
import Verif.Trace.ModelSym
import Verif.Trace.PropsSym
import Verif.Trace.PropsSymB
import Verif.Uniform
import Verif.Oracle
import Verif.Rsa.PropsDist
import Verif.Ppke.PropsDist
import Verif.Expand
import Verif.Mac.PropsGame
import Verif.Tosses
import Verif.Ppke.SpecGame
import Verif.Ppke.LemmasGame
import Verif.Ppke.LemmasGameB
import Verif.Ppke.PropsGame
import Verif.Relic.Model
import Verif.Relic.Spec
import Verif.Relic.Lemmas
import Verif.Relic.Props
import Verif.Relic.PropsBad
import Verif.Relic.PropsText
import Verif.SetHash.SpecGame
import Verif.SetHash.LemmasGame
import Verif.SetHash.LemmasGameB
import Verif.SetHash.PropsGame
import Verif.Io.Asn1More
import Verif.Io.Asn1MoreProps
import Verif.Io.Base64Exact
import Verif.Io.DerExact
import Verif.Io.PemExact
import Verif.Io.Normal
import Verif.Io.Composite
import Verif.Io.Stream
import Verif.Io.Permutation
import Verif.Prg.SpecGame
import Verif.Prg.PropsGame
import Verif.Mac.SpecRom
import Verif.Mac.LemmasRom
import Verif.Mac.PropsRom
import Verif.Key.ModelFail
import Verif.Key.SpecFail
import Verif.Key.LemmasFail
import Verif.Key.PropsFail
import Verif.Tdp.SpecHard
import Verif.Tdp.PropsHard
import Verif.Tdp.SpecBlind
import Verif.Tdp.PropsBlind
import Verif.Tdp.SpecTokens
import Verif.Tdp.PropsTokens
import Verif.Scrub.Basic
import Verif.Scrub.Model
import Verif.Scrub.Lemmas
import Verif.Scrub.PropsMac
import Verif.Scrub.PropsSym
import Verif.Scrub.PropsAsym
import Verif.Hcoef
import Verif.Feistel
import Verif.Aez.SpecRandom
import Verif.Aez.LemmasRandom
import Verif.Aez.ReduceRandom
import Verif.Aez.PropsRandom
import Verif.Fresh
import Verif.Wide
import Verif.WideSum
import Verif.WideList
import Verif.Aez.SpecWide
import Verif.Aez.LemmasWide
import Verif.Aez.StringWide
import Verif.Aez.SideWide
import Verif.Aez.ReduceWide
import Verif.Aez.PropsWide
import Verif.Aez.SpecAll
import Verif.Aez.LemmasAll
import Verif.Aez.PropsAll
import Verif.Aez.Exchange
import Verif.Aez.Field
import Verif.Aez.PropsExchange
import Verif.Masked
import Verif.Aez.SpecMasked
import Verif.Aez.Offsets
import Verif.Aez.LemmasMasked
import Verif.Aez.PropsMasked
import Verif.Aez.SpecWhole
import Verif.Aez.PropsWhole
import Verif.Many
import Verif.SpecMany
import Verif.PropsMany
import Verif.Aez.PropsParity
