import Verif.Model.Duo
import Verif.Spec.Queue

/-! # Observing two processes on one backend -/

namespace AJ

/-- What the backend shows of a work queue. -/
def Impl.see {D : Type} (b : Impl) (E : Env D) (name : Str) (w : World b.B) : Snap D := b.snap E name { w := w }

/-- The states two processes can reach from an empty backend, one undisturbed turn after the other, when every
turn satisfies `P`. -/
inductive TwinReach {D O : Type} (b : Impl) (E : Env D) (name : Str) (clk : Nat → Time)
    (P : Snap D → Op D O → Prop) : Twin D b.B → Prop where
  | start : TwinReach b E name clk P (Twin.init b.B b.empty)
  | step {t : Twin D b.B} (who : Bool) (op : Op D O) : TwinReach b E name clk P t →
      P (b.snap E name (t.side who)) op → TwinReach b E name clk P (Twin.step E name b.B clk t who op)

/-- The states two processes can reach from `t`, one undisturbed turn after the other, when every turn satisfies
`P`. -/
inductive TwinLater {D O : Type} (b : Impl) (E : Env D) (name : Str) (clk : Nat → Time)
    (P : Snap D → Op D O → Prop) (t : Twin D b.B) : Twin D b.B → Prop where
  | refl : TwinLater b E name clk P t t
  | step {t' : Twin D b.B} (who : Bool) (op : Op D O) : TwinLater b E name clk P t t' →
      P (b.snap E name (t'.side who)) op → TwinLater b E name clk P t (Twin.step E name b.B clk t' who op)

end AJ
