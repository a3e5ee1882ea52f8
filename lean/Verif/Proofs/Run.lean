import Verif.Model.System
import Verif.Proofs.InMem

/-! # Running programs: equations, simulation between backends -/

namespace AJ

namespace Prog
variable {α β : Type}

@[simp] theorem pure_eq (a : α) : (pure a : Prog α) = ret a := rfl
@[simp] theorem bind_eq (p : Prog α) (f : α → Prog β) : (p >>= f) = p.bind f := rfl
@[simp] theorem ret_bind (a : α) (f : α → Prog β) : (ret a).bind f = f a := rfl
@[simp] theorem fail_bind (e : Error) (f : α → Prog β) : (fail e : Prog α).bind f = fail e := rfl
@[simp] theorem panic_bind (f : α → Prog β) : (panic : Prog α).bind f = panic := rfl
@[simp] theorem diverge_bind (f : α → Prog β) : (diverge : Prog α).bind f = diverge := rfl

variable (B : Backend) (clk : Nat → Time)

@[simp] theorem run_ret (a : α) (w : World B) : (ret a).run B clk w = (.ok a, w) := rfl
@[simp] theorem run_fail (e : Error) (w : World B) : (fail e : Prog α).run B clk w = (.err e, w) := rfl
@[simp] theorem run_panic (w : World B) : (panic : Prog α).run B clk w = (.panicked, w) := rfl
@[simp] theorem run_diverge (w : World B) : (diverge : Prog α).run B clk w = (.diverged, w) := rfl
@[simp] theorem run_call (op : BOp) (k : Except Error op.Res → Prog α) (w : World B) :
    (call op k).run B clk w = (k (B.exec op w.s).1).run B clk { w with s := (B.exec op w.s).2 } := rfl
@[simp] theorem run_now (k : Time → Prog α) (w : World B) :
    (now k).run B clk w = (k (clk w.t)).run B clk { w with t := w.t + 1 } := rfl
@[simp] theorem run_emit (e : Event) (k : Prog α) (w : World B) :
    (emit e k).run B clk w = k.run B clk { w with log := w.log ++ [e] } := rfl

/-- Continue after a finished part. -/
def contRun (f : α → Prog β) : Out α × World B → Out β × World B
  | (.ok a, w) => (f a).run B clk w
  | (.err e, w) => (.err e, w)
  | (.panicked, w) => (.panicked, w)
  | (.diverged, w) => (.diverged, w)

theorem run_bind (p : Prog α) (f : α → Prog β) (w : World B) :
    (p.bind f).run B clk w = contRun B clk f (p.run B clk w) := by
  induction p generalizing w with
  | ret a => rfl
  | fail e => rfl
  | panic => rfl
  | diverge => rfl
  | call op k ih => exact ih _ _
  | now k ih => exact ih _ _
  | emit e k ih => exact ih _

@[simp] theorem contRun_ok (f : α → Prog β) (a : α) (w : World B) :
    contRun B clk f (.ok a, w) = (f a).run B clk w := rfl
@[simp] theorem contRun_err (f : α → Prog β) (e : Error) (w : World B) :
    contRun B clk f (.err e, w) = (.err e, w) := rfl
@[simp] theorem contRun_panicked (f : α → Prog β) (w : World B) :
    contRun B clk f (.panicked, w) = (.panicked, w) := rfl
@[simp] theorem contRun_diverged (f : α → Prog β) (w : World B) :
    contRun B clk f (.diverged, w) = (.diverged, w) := rfl

/-- Outcome of `catchErr`. -/
def catchOut : Out α → Out (Except Error α)
  | .ok a => .ok (.ok a)
  | .err e => .ok (.error e)
  | .panicked => .panicked
  | .diverged => .diverged

theorem run_catchErr (p : Prog α) (w : World B) :
    (p.catchErr).run B clk w = (catchOut (p.run B clk w).1, (p.run B clk w).2) := by
  induction p generalizing w with
  | ret a => rfl
  | fail e => rfl
  | panic => rfl
  | diverge => rfl
  | call op k ih => exact ih _ _
  | now k ih => exact ih _ _
  | emit e k ih => exact ih _

theorem run_call' (op : BOp) (w : World B) :
    (call' op).run B clk w = (.ok (B.exec op w.s).1, { w with s := (B.exec op w.s).2 }) := rfl

@[simp] theorem run_getNow (w : World B) :
    getNow.run B clk w = (.ok (clk w.t), { w with t := w.t + 1 }) := rfl
@[simp] theorem run_getNowMs (w : World B) :
    getNowMs.run B clk w = (.ok (clk w.t / nsPerMs), { w with t := w.t + 1 }) := rfl
@[simp] theorem run_send (e : Event) (w : World B) :
    (send e).run B clk w = (.ok (), { w with log := w.log ++ [e] }) := rfl

/-- Every backend call of the program, whatever the answers, satisfies `ok`. -/
def AllOps (ok : BOp → Prop) : Prog α → Prop
  | ret _ => True
  | fail _ => True
  | panic => True
  | diverge => True
  | call op k => ok op ∧ ∀ r, AllOps ok (k r)
  | now k => ∀ t, AllOps ok (k t)
  | emit _ k => AllOps ok k

theorem allOps_true (p : Prog α) : p.AllOps (fun _ => True) := by
  induction p with
  | ret a => trivial
  | fail e => trivial
  | panic => trivial
  | diverge => trivial
  | call op k ih => exact ⟨trivial, ih⟩
  | now k ih => exact ih
  | emit e k ih => exact ih

theorem AllOps.bind {ok : BOp → Prop} {p : Prog α} {f : α → Prog β} (hp : p.AllOps ok)
    (hf : ∀ a, (f a).AllOps ok) : (p.bind f).AllOps ok := by
  induction p with
  | ret a => exact hf a
  | fail e => trivial
  | panic => trivial
  | diverge => trivial
  | call op k ih => exact ⟨hp.1, fun r => ih r (hp.2 r)⟩
  | now k ih => exact fun t => ih t (hp t)
  | emit e k ih => exact ih hp

theorem AllOps.catchErr {ok : BOp → Prop} {p : Prog α} (hp : p.AllOps ok) : p.catchErr.AllOps ok := by
  induction p with
  | ret a => trivial
  | fail e => trivial
  | panic => trivial
  | diverge => trivial
  | call op k ih => exact ⟨hp.1, fun r => ih r (hp.2 r)⟩
  | now k ih => exact fun t => ih t (hp t)
  | emit e k ih => exact ih hp

end Prog

/-- A backend whose answers to the calls in `ok` are those of the specification, as long as the two
states are related. -/
structure Sim (B : Backend) (ok : BOp → Prop) where
  R : B.S → SpecState → Prop
  step : ∀ op s t, ok op → R s t →
    (B.exec op s).1 = .ok (Spec.exec op t).1 ∧ R (B.exec op s).2 (Spec.exec op t).2

/-- Related worlds. -/
structure Sim.RW {B : Backend} {ok : BOp → Prop} (S : Sim B ok) (w : World B) (v : World SpecB) : Prop where
  s : S.R w.s v.s
  t : w.t = v.t
  log : w.log = v.log

/-- A program over a simulating backend does what it does over the specification. -/
theorem Sim.run {B : Backend} {ok : BOp → Prop} (S : Sim B ok) (clk : Nat → Time) {α : Type} (p : Prog α)
    (hp : p.AllOps ok) (w : World B) (v : World SpecB) (h : S.RW w v) :
    (p.run B clk w).1 = (p.run SpecB clk v).1 ∧ S.RW (p.run B clk w).2 (p.run SpecB clk v).2 := by
  induction p generalizing w v with
  | ret a => exact ⟨rfl, h⟩
  | fail e => exact ⟨rfl, h⟩
  | panic => exact ⟨rfl, h⟩
  | diverge => exact ⟨rfl, h⟩
  | call op k ih =>
    obtain ⟨h1, h2⟩ := S.step op w.s v.s hp.1 h.s
    simp only [Prog.run_call]
    rw [h1]
    exact ih _ (hp.2 _) _ _ ⟨h2, h.t, h.log⟩
  | now k ih =>
    simp only [Prog.run_now, h.t]
    exact ih _ (hp _) _ _ ⟨h.s, by simp, h.log⟩
  | emit e k ih => exact ih hp _ _ ⟨h.s, h.t, by simp [h.log]⟩

/-- The in-memory backend simulates the specification on all calls. -/
def InMem.sim : Sim InMem (fun _ => True) where
  R s t := InMem.abs s = t
  step op s t _ h := by subst h; exact InMem.exec_refines op s

end AJ
