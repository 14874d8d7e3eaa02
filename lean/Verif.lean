import Verif.Lit
import Verif.LitProps
import Verif.Sat.Model
import Verif.Sat.Spec
import Verif.Sat.WF
import Verif.Sat.Cut
import Verif.Sat.Visit
import Verif.Sat.Visit2
import Verif.Sat.Analyze
import Verif.Sat.Record
import Verif.Sat.Resolve
import Verif.Sat.PropLoop
import Verif.Sat.Total
import Verif.Sat.Key
import Verif.Sat.Filt
import Verif.Sat.Post
import Verif.Sat.Reify
import Verif.Sat.Amo
import Verif.Sat.Exo
import Verif.Sat.Ops
import Verif.Sat.Next
import Verif.Sat.Check
import Verif.Sat.Simplify
import Verif.Sat.Copy
import Verif.Sat.Hist
import Verif.Sat.Legal
import Verif.Sat.Live
import Verif.Sat.LiveOps
import Verif.Sat.Later
import Verif.Sat.Demo
import Verif.Sat.PropsA
import Verif.Sat.PropsB
import Verif.Sat.PropsX
import Verif.Sat.Notify
import Verif.Sat.Notify2
import Verif.Sat.Stack
import Verif.Sat.PropsC
import Verif.Lin.Model
import Verif.Lin.Props
import Verif.DL.Model
import Verif.DL.Relax
import Verif.DL.Core
import Verif.DL.Hist
import Verif.DL.PropsA
import Verif.DL.Witness
import Verif.DL.Walk
import Verif.DL.Guard
import Verif.DL.Explain
import Verif.DL.Sys
import Verif.DL.Rel
import Verif.DL.PropsB
import Verif.DL.Query
import Verif.DL.PropsC
import Verif.DL.Copy
import Verif.DL.Overflow
import Verif.LRA.Model
import Verif.LRA.Num
import Verif.LRA.Eps
import Verif.LRA.Terms
import Verif.LRA.Tab
import Verif.LRA.Upd
import Verif.LRA.Spec
import Verif.LRA.Inv
import Verif.LRA.Assert
import Verif.LRA.Valid
import Verif.LRA.Check
import Verif.LRA.Bland
import Verif.LRA.Build
import Verif.LRA.Hist
import Verif.LRA.PropsA
import Verif.LRA.Rel
import Verif.LRA.Guard
import Verif.LRA.Sys
import Verif.LRA.Reach
import Verif.LRA.PropsB
import Verif.LRA.PropsC
import Verif.LRA.Witness
import Verif.LRA.Copy
import Verif.LRA.Demo
import Verif.LRA.Live
import Verif.LRA.LiveInst
import Verif.LRA.LiveNew
import Verif.LRA.Total
import Verif.LRA.Session
import Verif.LRA.PropsD
import Verif.LRA.PropsE
import Verif.Sat.Keep
import Verif.Sat.Restrict
import Verif.Sat.Mild
import Verif.Sat.Prod
import Verif.Sat.View
import Verif.LRA.Listen
import Verif.LRA.Free
import Verif.LRA.PropsF
import Verif.DL.Listen
import Verif.DL.Live
import Verif.Sat.Guarded
import Verif.DL.Session
import Verif.Sat.Search
import Verif.DL.PropsD
import Verif.DL.Demo
import Verif.OV.Model
import Verif.OV.Core
import Verif.OV.NewVar
import Verif.OV.NewEq
import Verif.OV.Props
import Verif.OV.Demo
import Verif.OV.Listen
import Verif.OV.ListenDemo
import Verif.Text.Lin
import Verif.Text.Caches
import Verif.Text.Json
import Verif.Text.Read
import Verif.Mix.Model
import Verif.Mix.Session
import Verif.Mix.Props
import Verif.Mix.Demo
import Verif.Sat.Quiet
import Verif.Sat.Share
import Verif.Sat.PropsS
import Verif.LRA.PropsS
import Verif.Sat.PropsM
import Verif.Mix.PropsM
import Verif.Sat.Trail
import Verif.Sat.Light
import Verif.Sat.Down
import Verif.Sat.Steady
import Verif.Sat.SteadyOps
import Verif.DL.Tree
import Verif.DL.Firm
import Verif.DL.Play
import Verif.DL.PlayDemo
import Verif.Sat.FirmProd
import Verif.LRA.Firm
import Verif.LRA.Play
import Verif.Mix.Play
import Verif.Mix.PlayDemo
import Verif.Sat.Halt
import Verif.Sat.HaltOps
import Verif.Mix.Halt
import Verif.Sat.Frame
import Verif.Sat.Vow
import Verif.Sat.VowAmo
import Verif.Sat.VowOps
import Verif.DL.Vow
import Verif.LRA.Vow
import Verif.Mix.Vow
import Verif.Mix.VowDemo
import Verif.Lib.Comp
import Verif.OV.Firm
import Verif.OV.Comp
import Verif.Lib.Inst
import Verif.Lib.Props
import Verif.Lib.Halt
import Verif.Lib.Demo
import Verif.Lib.Duty
import Verif.Lib.DutyInst
import Verif.Lib.DutyOV
import Verif.Lib.Sess
import Verif.Lib.Family
import Verif.Lib.FamilyUse
import Verif.Lib.Decide
import Verif.Lib.Families
import Verif.Lib.FamilyDemo
import Verif.Sat.Bal
import Verif.Sat.StackT
import Verif.Sat.Under
import Verif.Sat.Tower
import Verif.LRA.StackT
import Verif.LRA.StackDemo
import Verif.DL.StackT
import Verif.Lib.Stack
import Verif.Lib.StackDemo
import Verif.Sat.With
import Verif.Sat.Pile
import Verif.Lib.StackSess
import Verif.Lib.Stacks
import Verif.Lib.StacksDemo
import Verif.Lib.Talk
import Verif.Lib.TalkBase
import Verif.Lib.TalkCore
import Verif.Lib.TalkTheory
import Verif.Lib.TalkProps
import Verif.Lib.TalkDemo
import Verif.Lib.StackTalk
import Verif.Lib.StackTold
import Verif.Lib.StackTalkProps
import Verif.Lib.StackTalkDemo
import Verif.Lib.TalkSafe
import Verif.Lib.TalkSafeDemo
import Verif.Lib.StackSafe
import Verif.Lib.StackSafeDemo
