import Verif.Model.Runtime
import Verif.Spec.Plugin

/-!
# Plugins and systems
-/

namespace AJ.Runtime

/-- The messages meant for the plugin centre of system `s`, in order. -/
def meantFor (r : Runtime) (s : Nat) : List PluginMsg := (r.sent.filter fun x => x.1 = s).map Prod.snd

/-- A hook of a plugin has been called, somewhere. -/
def Heard (r : Runtime) : Prop := ∃ s, (r.centres s).calls ≠ []

/-- What the plugin centre should be sent in the course of some steps: a registration for each call of `register_plugin` by a thread
of the system (`member`), and the messages of the work queues. There is one work queue for each type, in the order in which
the types were first submitted (`types`: those submitted before). -/
def letters (member : Nat → Bool) (types : List Nat) : List RunOp → List PluginMsg
  | [] => []
  | .system th :: ops => letters (fun x => member x && x != th) types ops
  | .plugin th :: ops => (if member th then [.register .ofUser] else []) ++ letters member types ops
  | .submit ty :: ops => letters member (if ty ∈ types then types else types ++ [ty]) ops
  | .event q ev :: ops => ((types[q]?).bind fun ty => ev.msg ty).toList ++ letters member types ops
  | _ :: ops => letters member types ops

end AJ.Runtime
