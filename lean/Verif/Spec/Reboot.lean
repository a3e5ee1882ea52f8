import Verif.Model.Reboot
import Verif.Spec.Weave
import Verif.Spec.Crash

/-! # Processes one after the other -/

namespace AJ

/-- The request submits or updates under the name that `N` gives the type. -/
def Req.Named {D : Type} (N : Nat → Str) : Req D → Prop
  | .submit ty n _ _ => n = N ty
  | .update ty n _ _ _ => n = N ty
  | _ => True

/-- The request submits, cancels, updates or retries job `k`. -/
def Req.Concerns {D : Type} (k : Str) (req : Req D) : Prop := req.Touches k ∨ ∃ ty, req = .retry ty k

/-- The request submits a job of type `ty`. -/
def Req.Submits {D : Type} (ty : Nat) : Req D → Prop
  | .submit ty' _ _ _ => ty' = ty
  | _ => False

namespace Boot
variable {D O : Type} (E : Nat → Env D)

/-- A process whose requests are about ids of their own type and use the names `N`. -/
def Fit (kind : Str → Nat) (N : Nat → Str) (l : Boot D O) : Prop := ∀ c req, .site (.begin c req) ∈ l.ops → req.On kind ∧ req.Named N

/-- Every process starts at most one engine. -/
def Lone (B : Backend) : (Nat → B.S) → List (Boot D O) → Prop
  | _, [] => True
  | s, l :: ls => (l.last E B s).site.hub.engines.length ≤ 1 ∧ Lone B (l.last E B s).site.stores ls

/-- Processes and steps of the last of them, up to some moment. -/
def Moment (m ls : List (Boot D O)) : Prop :=
  m = [] ∨ ∃ done l rest p, ls = done ++ l :: rest ∧ p <+: l.ops ∧ m = done ++ [{ l with ops := p }]

/-- What a work queue of type `ty` and name `n` would find in the backend. -/
def found (b : Impl) (s : b.B.S) (ty : Nat) (n : Str) : Snap D := b.snap (E ty) n (Sys.init b.B s)

end Boot
end AJ
