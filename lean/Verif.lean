import Verif.Model.System
import Verif.Proofs.Inv
import Verif.Proofs.TickFacts
import Verif.Proofs.Spelled
import Verif.Proofs.Late
import Verif.Props.Backend
import Verif.Props.Equiv
import Verif.Props.Codec
import Verif.Props.Tick
import Verif.Props.Starve
import Verif.Props.Life
import Verif.Props.Retry
import Verif.Props.Cron
import Verif.Props.Ops
import Verif.Props.Crash
import Verif.Props.Fault
import Verif.Props.Duo
import Verif.Props.Crew
import Verif.Props.CrewCrash
import Verif.Props.Plugin
import Verif.Props.Registry
import Verif.Props.Util
import Verif.Props.Macro
import Verif.Props.Many
import Verif.Props.Async
import Verif.Props.Fire
import Verif.Props.Timer
import Verif.Props.Site
import Verif.Props.Once
import Verif.Props.EndToEnd
import Verif.Props.Sent
import Verif.Props.Overlap
import Verif.Props.Record
import Verif.Props.Weave
import Verif.Props.WeaveRun
import Verif.Props.Runtime
import Verif.Props.Reboot
import Verif.Props.Endless
import Verif.Props.EndlessSite
import Verif.Props.Rounds
import Verif.Props.EndlessWeave
import Verif.Props.EndlessBoot
import Verif.Model.Grant
import Verif.Spec.Grant
import Verif.Proofs.Grant
import Verif.Proofs.GrantEndless
import Verif.Props.Grant
import Verif.Spec.Slots
import Verif.Proofs.Slots
import Verif.Proofs.Slack
import Verif.Spec.Drain
import Verif.Proofs.Drain
import Verif.Props.Drain
import Verif.Spec.Fair
import Verif.Proofs.Fair
import Verif.Props.Fair
import Verif.Spec.DrainWeave
import Verif.Proofs.DrainSite
import Verif.Proofs.DrainWeave
import Verif.Props.DrainWeave
import Verif.Spec.Estate
import Verif.Proofs.Estate
import Verif.Proofs.EstateWeave
import Verif.Props.Slots
import Verif.Props.Estate
import Verif.Spec.Ledger
import Verif.Proofs.Ledger
import Verif.Props.Ledger
import Verif.Props.Cases
import Verif.Props.LedgerWeave
import Verif.Spec.ProcessJobs
import Verif.Proofs.ProcessJobs
import Verif.Proofs.Due
import Verif.Props.ProcessJobs
import Verif.Spec.Story
import Verif.Proofs.Story
import Verif.Props.Story
import Verif.Spec.Outcome
import Verif.Props.Outcome
